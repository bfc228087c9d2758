import Verif.Proofs.Float32
import Verif.Proofs.MwpmWeight
import Verif.Proofs.Libs

/-!
# The lemon backend
-/

namespace Flamingpy.SurfaceCode

open Flamingpy

theorem getD_flatten {α : Type} (d : α) (n : ℕ) : ∀ (rows : List (List α)), (∀ r ∈ rows, r.length = n) →
    ∀ i j, j < n → rows.flatten.getD (i * n + j) d = (rows.getD i []).getD j d
  | [], _, i, j, _ => by simp
  | r :: rows, h, 0, j, hj => by
    have hr : r.length = n := h r (by simp)
    simp only [List.flatten_cons, Nat.zero_mul, Nat.zero_add, List.getD_cons_zero]
    rw [List.getD_append _ _ _ _ (by omega)]
  | r :: rows, h, i + 1, j, hj => by
    have hr : r.length = n := h r (by simp)
    have he : (i + 1) * n + j = (i * n + j) + r.length := by rw [hr]; ring
    rw [List.flatten_cons, List.getD_append_right _ _ _ _ (by omega), List.getD_cons_succ, he, Nat.add_sub_cancel]
    exact getD_flatten d n rows (fun r hr => h r (by simp [hr])) i j hj

/-- Entry of the matrix handed to LEMON. -/
def entry (E : List (Sym2 MNode × ℚ)) (e : Sym2 MNode) : ℚ :=
  float32 (((PyDict.get? E e).map fun wt => -wt).getD (-(2 ^ 64) + 1))

theorem lemonMwpm_eq (ll : LemonLib) (nodes : List MNode) (E : List (Sym2 MNode × ℚ)) :
    ∃ W : ℕ → ℕ → ℚ, lemonMwpm ll (lemonAdjacency nodes E) = ll.run nodes.length W ∧
      ∀ i (hi : i < nodes.length) j (hj : j < nodes.length), W i j = entry E s(nodes[i], nodes[j]) := by
  refine ⟨_, by unfold lemonMwpm lemonAdjacency; simp only [List.length_map]; rfl, ?_⟩
  intro i hi j hj
  rw [getD_flatten 0 nodes.length _ (by simp) i j hj]
  simp [List.getD_eq_getElem?_getD, hi, hj, entry]

/-- The weight of a matching after rounding. -/
def rWeight (E : List (Sym2 MNode × ℚ)) (M : List (MNode × MNode)) : ℚ :=
  (M.map fun m => -entry E s(m.1, m.2)).sum

theorem sum_neg_map {α : Type} (l : List α) (f : α → ℚ) : (l.map fun a => -f a).sum = -(l.map f).sum := by
  induction l with
  | nil => simp
  | cons a l ih => simp only [List.map_cons, List.sum_cons, ih]; ring

/-- The pairs of indices of a set of pairs of nodes. -/
def toIdx (nodes : List MNode) (M : List (MNode × MNode)) : List (ℕ × ℕ) :=
  M.map fun m => (min (nodes.idxOf m.1) (nodes.idxOf m.2), max (nodes.idxOf m.1) (nodes.idxOf m.2))

theorem ends_mem {M : List (MNode × MNode)} {m : MNode × MNode} (hm : m ∈ M) : m.1 ∈ ends2 M ∧ m.2 ∈ ends2 M :=
  ⟨List.mem_flatMap.2 ⟨m, hm, by simp⟩, List.mem_flatMap.2 ⟨m, hm, by simp⟩⟩

theorem ends_ne {M : List (MNode × MNode)} (hn : (ends2 M).Nodup) {m : MNode × MNode} (hm : m ∈ M) : m.1 ≠ m.2 := by
  have := (List.nodup_flatMap.1 hn).1 m hm
  simpa using this

theorem toIdx_perfect {nodes : List MNode} (hn : nodes.Nodup) {M : List (MNode × MNode)}
    (hP : (ends2 M).Perm nodes) : IsPerfect nodes.length (toIdx nodes M) := by
  constructor
  · intro e he
    obtain ⟨m, hm, rfl⟩ := List.mem_map.1 he
    obtain ⟨h1, h2⟩ := ends_mem hm
    have h1' := List.idxOf_lt_length_iff.2 (hP.subset h1)
    have h2' := List.idxOf_lt_length_iff.2 (hP.subset h2)
    have hne : nodes.idxOf m.1 ≠ nodes.idxOf m.2 := fun he =>
      ends_ne (hP.nodup_iff.2 hn) hm ((List.idxOf_inj (hP.subset h1)).1 he)
    simp only
    omega
  · have h1 : ((toIdx nodes M).flatMap fun e => [e.1, e.2]).Perm ((ends2 M).map nodes.idxOf) := by
      unfold toIdx ends2
      clear hP
      induction M with
      | nil => simp
      | cons m M ih =>
        rw [List.map_cons, List.flatMap_cons, List.flatMap_cons, List.map_append]
        refine List.Perm.append ?_ ih
        simp only [List.map_cons, List.map_nil]
        rcases le_total (nodes.idxOf m.1) (nodes.idxOf m.2) with h | h
        · rw [min_eq_left h, max_eq_right h]
        · rw [min_eq_right h, max_eq_left h]
          exact List.Perm.swap _ _ _
    refine h1.trans ((hP.map _).trans ?_)
    have : nodes.map nodes.idxOf = List.range nodes.length := by
      apply List.ext_getElem (by simp)
      intro i h1 h2
      simp only [List.getElem_map, List.getElem_range]
      exact hn.idxOf_getElem i _
    rw [this]

theorem toIdx_weight {nodes : List MNode} {E : List (Sym2 MNode × ℚ)} {W : ℕ → ℕ → ℚ}
    (hW : ∀ i (hi : i < nodes.length) j (hj : j < nodes.length), W i j = entry E s(nodes[i], nodes[j]))
    {M : List (MNode × MNode)} (hP : (ends2 M).Perm nodes) :
    ((toIdx nodes M).map fun e => W e.1 e.2).sum = -rWeight E M := by
  unfold toIdx rWeight
  rw [sum_neg_map, neg_neg, List.map_map]
  congr 1
  apply List.map_congr_left
  intro m hm
  obtain ⟨h1, h2⟩ := ends_mem hm
  have h1' := List.idxOf_lt_length_iff.2 (hP.subset h1)
  have h2' := List.idxOf_lt_length_iff.2 (hP.subset h2)
  simp only [Function.comp]
  rcases le_total (nodes.idxOf m.1) (nodes.idxOf m.2) with h | h
  · rw [min_eq_left h, max_eq_right h, hW _ h1' _ h2', List.getElem_idxOf, List.getElem_idxOf]
  · rw [min_eq_right h, max_eq_left h, hW _ h2' _ h1', List.getElem_idxOf, List.getElem_idxOf, Sym2.eq_swap]

/-- The result translated to nodes. -/
theorem lemonMatching_eq (ll : LemonLib) {nodes : List MNode} (hn : nodes.Nodup) (E : List (Sym2 MNode × ℚ))
    (hev : Even nodes.length) :
    ∃ M, lemonMatching ll nodes E = some M ∧ (ends2 M).Perm nodes ∧
      ∀ M', (ends2 M').Perm nodes → rWeight E M ≤ rWeight E M' := by
  obtain ⟨W, hrun, hW⟩ := lemonMwpm_eq ll nodes E
  obtain ⟨hedge, hperm⟩ := ll.perfect nodes.length W hev
  set R := ll.run nodes.length W with hR
  set g : ℕ × ℕ → MNode × MNode := fun i => (nodes.getD i.1 (.stab 0), nodes.getD i.2 (.stab 0)) with hg
  have hsome : lemonMatching ll nodes E = some (R.map g) := by
    unfold lemonMatching
    rw [hrun]
    have : ∀ L : List (ℕ × ℕ), (∀ e ∈ L, e.1 < e.2 ∧ e.2 < nodes.length) →
        L.mapM (fun i => do
          let a ← nodes[i.1]?
          let b ← nodes[i.2]?
          pure (a, b)) = some (L.map g) := by
      intro L hL
      induction L with
      | nil => rfl
      | cons i L ih =>
        obtain ⟨h1, h2⟩ := hL i (by simp)
        rw [List.mapM_cons, ih fun e he => hL e (by simp [he])]
        have h1' : i.1 < nodes.length := by omega
        simp [hg, h1', h2, List.getD_eq_getElem?_getD]
    exact this R hedge
  have hends : (ends2 (R.map g)).Perm nodes := by
    have h1 : ends2 (R.map g) = (R.flatMap fun e => [e.1, e.2]).map fun i => nodes.getD i (.stab 0) := by
      unfold ends2
      rw [List.flatMap_map, List.map_flatMap]
      rfl
    have h2 : (List.range nodes.length).map (fun i => nodes.getD i (MNode.stab 0)) = nodes := by
      apply List.ext_getElem (by simp)
      intro i h1 h2
      simp [List.getD_eq_getElem?_getD, h2]
    rw [h1]
    refine (hperm.map _).trans ?_
    rw [h2]
  refine ⟨R.map g, hsome, hends, fun M' hM' => ?_⟩
  have h1 := ll.maximal nodes.length W _ (toIdx_perfect hn hM')
  rw [toIdx_weight hW hM', ← hR] at h1
  have h2 : (R.map fun e => W e.1 e.2).sum = -rWeight E (R.map g) := by
    unfold rWeight
    rw [sum_neg_map, neg_neg, List.map_map]
    congr 1
    apply List.map_congr_left
    intro e he
    obtain ⟨h3, h4⟩ := hedge e he
    have h3' : e.1 < nodes.length := by omega
    simp only [Function.comp, hg]
    rw [hW _ h3' _ h4]
    simp [List.getD_eq_getElem?_getD, h3', h4]
  rw [h2] at h1
  linarith

theorem entry_nonpos {E : List (Sym2 MNode × ℚ)} (hE : ∀ e ∈ E, 0 ≤ e.2) (e : Sym2 MNode) : entry E e ≤ 0 := by
  unfold entry
  apply float32_nonpos
  cases hg : PyDict.get? E e with
  | none => norm_num
  | some q =>
    have := hE _ (PyDict.get?_mem hg)
    simpa using this

theorem entry_none {E : List (Sym2 MNode × ℚ)} {e : Sym2 MNode} (h : e ∉ PyDict.keys E) : entry E e ≤ -(2 ^ 63) := by
  have hg : PyDict.get? E e = none := by
    cases hg : PyDict.get? E e with
    | none => rfl
    | some q => exact absurd ((PyDict.get?_isSome_iff _ _).1 (by rw [hg]; rfl)) h
  unfold entry
  rw [hg]
  simp only [Option.map_none, Option.getD_none]
  have := float32_err (-(2 ^ 64) + 1)
  rw [abs_le, abs_of_nonpos (by norm_num)] at this
  have := this.2
  norm_num at this ⊢
  linarith

/-- Rounded and exact weight of an edge. -/
theorem entry_err {E : List (Sym2 MNode × ℚ)} (hE : ∀ e ∈ E, 0 ≤ e.2) {e : Sym2 MNode} (h : e ∈ PyDict.keys E) :
    |(-entry E e) - (PyDict.get? E e).getD 0| ≤ (PyDict.get? E e).getD 0 / 2 ^ 24 ∧ 0 ≤ (PyDict.get? E e).getD 0 := by
  obtain ⟨q, hq⟩ := Option.isSome_iff_exists.1 ((PyDict.get?_isSome_iff _ _).2 h)
  have h0 : 0 ≤ q := hE _ (PyDict.get?_mem hq)
  unfold entry
  rw [hq]
  simp only [Option.map_some, Option.getD_some]
  have := float32_err (-q)
  rw [abs_neg, abs_of_nonneg h0] at this
  refine ⟨?_, h0⟩
  rw [← abs_neg]
  convert this using 2
  ring

theorem rWeight_err {E : List (Sym2 MNode × ℚ)} (hE : ∀ e ∈ E, 0 ≤ e.2) {M : List (MNode × MNode)}
    (hM : ∀ m ∈ M, s(m.1, m.2) ∈ PyDict.keys E) :
    |rWeight E M - matchWeight E M| ≤ matchWeight E M / 2 ^ 24 := by
  unfold rWeight matchWeight
  induction M with
  | nil => simp
  | cons m M ih =>
    have h1 := (entry_err hE (hM m (by simp))).1
    have h2 := ih fun m hm => hM m (by simp [hm])
    simp only [List.map_cons, List.sum_cons]
    calc _ ≤ |(-entry E s(m.1, m.2)) - (PyDict.get? E s(m.1, m.2)).getD 0| + _ := by
          rw [add_sub_add_comm]; exact abs_add_le _ _
      _ ≤ _ := by rw [add_div]; exact add_le_add h1 h2

/-- If the graph has a perfect matching of moderate weight, lemon returns a perfect matching consisting of edges, of least
rounded weight. -/
theorem lemon_spec (ll : LemonLib) {nodes : List MNode} (hn : nodes.Nodup) {E : List (Sym2 MNode × ℚ)}
    (hE : ∀ e ∈ E, 0 ≤ e.2) {M₀ : List (MNode × MNode)} (hM₀ : ∀ m ∈ M₀, s(m.1, m.2) ∈ PyDict.keys E)
    (hP₀ : (ends2 M₀).Perm nodes) (hw : matchWeight E M₀ < 2 ^ 62) :
    ∃ M, lemonMatching ll nodes E = some M ∧ IsMatching E M ∧ (ends2 M).Perm nodes ∧
      ∀ M', (ends2 M').Perm nodes → rWeight E M ≤ rWeight E M' := by
  have hev : Even nodes.length := by
    rw [← hP₀.length_eq, ends2_length]
    exact even_two_mul _
  obtain ⟨M, h1, h2, h3⟩ := lemonMatching_eq ll hn E hev
  refine ⟨M, h1, ⟨?_, h2.nodup_iff.2 hn⟩, h2, h3⟩
  intro m hm
  by_contra hk
  have h4 := h3 M₀ hP₀
  have h5 : (2 : ℚ) ^ 63 ≤ rWeight E M := by
    have h6 := entry_none hk
    have h7 : -entry E s(m.1, m.2) ≤ rWeight E M :=
      List.single_le_sum (fun x hx => by
        obtain ⟨m', _, rfl⟩ := List.mem_map.1 hx
        have := entry_nonpos hE s(m'.1, m'.2)
        linarith) _ (List.mem_map_of_mem hm)
    linarith
  have h6 := rWeight_err hE hM₀
  rw [abs_le] at h6
  have h7 := h6.2
  have h8 : matchWeight E M₀ / 2 ^ 24 < 2 ^ 62 / 2 ^ 24 := by gcongr
  norm_num at h5 h8 hw
  linarith

/-! ### As a matching routine in the sense of `MatchLib` -/

/-- What the decoder needs of a matching routine on one graph. -/
def Optimal (E : List (Sym2 MNode × ℚ)) (M : List (MNode × MNode)) : Prop :=
  IsMatching E M ∧ (∀ M', IsMatching E M' → M'.length ≤ M.length) ∧
    ∀ M', IsMatching E M' → M'.length = M.length → matchWeight E M ≤ matchWeight E M'

open Classical in
/-- One matching routine that agrees with lemon wherever lemon is optimal. -/
theorem lemon_lib (ll : LemonLib) (no : NodeOrder) : ∃ ml : MatchLib, ∀ E M, lemonMatching ll (no.nodes E) E = some M →
    Optimal E M → ml.find E = M := by
  have key : ∀ E, ∃ M, Optimal E M ∧ ∀ M', lemonMatching ll (no.nodes E) E = some M' → Optimal E M' → M = M' := by
    intro E
    by_cases hl : ∃ M, lemonMatching ll (no.nodes E) E = some M ∧ Optimal E M
    · obtain ⟨M, h1, h2⟩ := hl
      exact ⟨M, h2, fun M' h3 _ => by rw [h1] at h3; exact Option.some.inj h3⟩
    · obtain ⟨M, h1, h2, h3⟩ := best_matching E
      exact ⟨M, ⟨h1, h2, h3⟩, fun M' h4 h5 => absurd ⟨M', h4, h5⟩ hl⟩
  choose f hf hf' using key
  exact ⟨⟨f, fun E => (hf E).1, fun E => (hf E).2.1, fun E => (hf E).2.2⟩, fun E M h1 h2 => hf' E M h1 h2⟩

theorem matching_subperm (no : NodeOrder) {E : List (Sym2 MNode × ℚ)} {M : List (MNode × MNode)} (hM : IsMatching E M) :
    (ends2 M).Subperm (no.nodes E) := by
  refine List.Nodup.subperm hM.2 fun x hx => ?_
  obtain ⟨m, hm, hx⟩ := List.mem_flatMap.1 hx
  refine (no.mem E x).2 ⟨_, hM.1 m hm, ?_⟩
  simpa using hx

/-- A perfect matching of least weight is optimal. -/
theorem optimal_of_perfect (no : NodeOrder) {E : List (Sym2 MNode × ℚ)} {M : List (MNode × MNode)} (hM : IsMatching E M)
    (hP : (ends2 M).Perm (no.nodes E))
    (hmin : ∀ M', IsMatching E M' → (ends2 M').Perm (no.nodes E) → matchWeight E M ≤ matchWeight E M') :
    Optimal E M := by
  have hl := hP.length_eq
  rw [ends2_length] at hl
  refine ⟨hM, fun M' hM' => ?_, fun M' hM' he => ?_⟩
  · have := (matching_subperm no hM').length_le
    rw [ends2_length] at this
    omega
  · refine hmin M' hM' ((matching_subperm no hM').perm_of_length_le ?_)
    rw [ends2_length]
    omega

/-- Small integer weights are not rounded. -/
theorem rWeight_exact {E : List (Sym2 MNode × ℚ)} (hE : ∀ e ∈ E, ∃ n : ℕ, e.2 = n) {M : List (MNode × MNode)}
    (hM : ∀ m ∈ M, s(m.1, m.2) ∈ PyDict.keys E) (hs : rWeight E M ≤ 2 ^ 24 - 1) : rWeight E M = matchWeight E M := by
  have hE0 : ∀ e ∈ E, 0 ≤ e.2 := fun e he => by obtain ⟨n, hn⟩ := hE e he; rw [hn]; exact Nat.cast_nonneg n
  unfold rWeight matchWeight
  congr 1
  apply List.map_congr_left
  intro m hm
  obtain ⟨q, hq⟩ := Option.isSome_iff_exists.1 ((PyDict.get?_isSome_iff _ _).2 (hM m hm))
  obtain ⟨n, hn⟩ := hE _ (PyDict.get?_mem hq)
  obtain rfl : q = n := hn
  have h1 : -entry E s(m.1, m.2) ≤ rWeight E M := List.single_le_sum (fun x hx => by
    obtain ⟨m', _, rfl⟩ := List.mem_map.1 hx
    have := entry_nonpos hE0 s(m'.1, m'.2)
    linarith) _ (List.mem_map_of_mem hm)
  have h2 := (entry_err hE0 (hM m hm)).1
  rw [hq, Option.getD_some, abs_le] at h2
  have h3 : n ≤ 2 ^ 24 := by
    by_contra hc
    have h0' : (2 : ℚ) ^ 24 + 1 ≤ n := by exact_mod_cast Nat.lt_of_not_le hc
    have h4 := h2.1
    have h5 : -entry E s(m.1, m.2) ≥ n - n / 2 ^ 24 := by linarith
    have h6 : (n : ℚ) - n / 2 ^ 24 = n * (1 - 1 / 2 ^ 24) := by ring
    have h7 : ((2 : ℚ) ^ 24 + 1) * (1 - 1 / 2 ^ 24) ≤ n * (1 - 1 / 2 ^ 24) :=
      mul_le_mul_of_nonneg_right h0' (by norm_num)
    norm_num at h7 h6 hs h5 h1
    linarith
  unfold entry
  rw [hq]
  simp only [Option.map_some, Option.getD_some]
  have := float32_int (n := -(n : ℤ)) (by rw [abs_neg, Nat.abs_cast]; exact_mod_cast h3)
  push_cast at this
  rw [this, neg_neg]

/-- With integer weights and a perfect matching of small weight, lemon is optimal. -/
theorem lemon_optimal (ll : LemonLib) (no : NodeOrder) {E : List (Sym2 MNode × ℚ)} (hE : ∀ e ∈ E, ∃ n : ℕ, e.2 = n)
    {M₀ : List (MNode × MNode)} (hM₀ : IsMatching E M₀) (hP₀ : (ends2 M₀).Perm (no.nodes E))
    (hw : matchWeight E M₀ < 2 ^ 24) : ∃ M, lemonMatching ll (no.nodes E) E = some M ∧ Optimal E M := by
  have hE0 : ∀ e ∈ E, 0 ≤ e.2 := fun e he => by obtain ⟨n, hn⟩ := hE e he; rw [hn]; exact Nat.cast_nonneg n
  obtain ⟨M, h1, h2, h3, h4⟩ := lemon_spec ll (no.nodup E) hE0 hM₀.1 hP₀ (hw.trans (by norm_num))
  refine ⟨M, h1, optimal_of_perfect no h2 h3 fun M' hM' hP' => ?_⟩
  -- weights are integers
  have hnat : ∀ M : List (MNode × MNode), ∃ n : ℕ, matchWeight E M = n := by
    intro M
    induction M with
    | nil => exact ⟨0, by simp [matchWeight]⟩
    | cons m M ih =>
      obtain ⟨n, hn⟩ := ih
      have : ∃ k : ℕ, (PyDict.get? E s(m.1, m.2)).getD 0 = k := by
        cases hg : PyDict.get? E s(m.1, m.2) with
        | none => exact ⟨0, by simp⟩
        | some q => exact hE _ (PyDict.get?_mem hg)
      obtain ⟨k, hk⟩ := this
      refine ⟨k + n, ?_⟩
      unfold matchWeight at hn ⊢
      rw [List.map_cons, List.sum_cons, hk, hn]
      push_cast
      rfl
  have hexact : ∀ M : List (MNode × MNode), (∀ m ∈ M, s(m.1, m.2) ∈ PyDict.keys E) → matchWeight E M < 2 ^ 24 →
      rWeight E M = matchWeight E M := by
    intro M hM hlt
    unfold rWeight matchWeight
    congr 1
    apply List.map_congr_left
    intro m hm
    obtain ⟨q, hq⟩ := Option.isSome_iff_exists.1 ((PyDict.get?_isSome_iff _ _).2 (hM m hm))
    obtain ⟨n, hn⟩ := hE _ (PyDict.get?_mem hq)
    obtain rfl : q = n := hn
    have h5 : (PyDict.get? E s(m.1, m.2)).getD 0 ≤ matchWeight E M := List.single_le_sum (fun x hx => by
      obtain ⟨m', hm', rfl⟩ := List.mem_map.1 hx
      exact (entry_err hE0 (hM m' hm')).2) _ (List.mem_map_of_mem hm)
    rw [hq, Option.getD_some] at h5
    have h6 : n < 2 ^ 24 := by exact_mod_cast h5.trans_lt hlt
    unfold entry
    rw [hq]
    simp only [Option.map_some, Option.getD_some]
    have := float32_int (n := -(n : ℤ)) (by rw [abs_neg, Nat.abs_cast]; exact_mod_cast h6.le)
    push_cast at this
    rw [this, neg_neg]
  have hle : ∀ M : List (MNode × MNode), matchWeight E M < 2 ^ 24 → matchWeight E M ≤ 2 ^ 24 - 1 := by
    intro M hlt
    obtain ⟨n, hn⟩ := hnat M
    rw [hn] at hlt ⊢
    have : n < 2 ^ 24 := by exact_mod_cast hlt
    have : ((n + 1 : ℕ) : ℚ) ≤ ((2 ^ 24 : ℕ) : ℚ) := by exact_mod_cast this
    push_cast at this
    linarith
  have h5 : rWeight E M ≤ 2 ^ 24 - 1 := by
    refine (h4 M₀ hP₀).trans ?_
    rw [hexact M₀ hM₀.1 hw]
    exact hle M₀ hw
  rw [← rWeight_exact hE h2.1 h5]
  rcases lt_or_ge (matchWeight E M') (2 ^ 24) with h6 | h6
  · rw [← hexact M' hM'.1 h6]
    exact h4 M' hP'
  · linarith

end Flamingpy.SurfaceCode
