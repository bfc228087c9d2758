import Verif.Model.MacroCode
import Verif.Props.Macronize
import Verif.Props.Rhg
import Verif.Proofs.CodeFacts

/-! # The graph of a surface code is a lattice in the sense of `macronize` -/

namespace Flamingpy.Noise

open Flamingpy Flamingpy.SurfaceCode Flamingpy.EGraph Flamingpy.Macronize

theorem toPt_inj : Function.Injective toPt := by
  intro x y h
  unfold toPt at h
  simp only [Prod.mk.injEq, Int.cast_inj] at h
  funext i
  fin_cases i
  · exact h.1
  · exact h.2.1
  · exact h.2.2

/-- A unit vector. -/
def unitPt (i : Fin 3) (s : ℚ) : Pt := (if i = 0 then s else 0, if i = 1 then s else 0, if i = 2 then s else 0)

theorem unitPt_inj {i j : Fin 3} {s t : ℚ} (hs : s ≠ 0) (ht : t ≠ 0) (h : unitPt i s = unitPt j t) : i = j ∧ s = t := by
  unfold unitPt at h
  simp only [Prod.mk.injEq] at h
  obtain ⟨h1, h2, h3⟩ := h
  fin_cases i <;> fin_cases j <;> simp_all

/-- Sign with the flip of a periodic edge. -/
def flipSign (p : Bool) (x : ℚ) : ℚ := if p then -sgn x else sgn x

theorem axis_step {bd : Bd} {d : ℕ} {a b : ℤ} (hd : 2 ≤ d) (ha : inAxis bd d a) (hb : inAxis bd d b)
    (h : nextTo bd d a b) (p : Bool) (hp : p = true ↔ 1 < |a - b|) :
    (b = succA bd d a ∧ flipSign p ((b : ℚ) - a) = 1) ∨ (b = prevA bd d a ∧ flipSign p ((b : ℚ) - a) = -1) := by
  have key : ∀ c : ℤ, (b : ℚ) - a = c → (c = 1 → sgn ((b : ℚ) - a) = 1) ∧ (c = -1 → sgn ((b : ℚ) - a) = -1) ∧
      (1 < c → sgn ((b : ℚ) - a) = 1) ∧ (c < -1 → sgn ((b : ℚ) - a) = -1) := by
    intro c hc
    rw [hc]
    unfold sgn
    refine ⟨?_, ?_, ?_, ?_⟩
    · rintro rfl; norm_num
    · rintro rfl; norm_num
    · intro h1
      have : (0 : ℚ) < c := by exact_mod_cast (by omega : (0 : ℤ) < c)
      rw [if_pos this]
    · intro h1
      have : (c : ℚ) < 0 := by exact_mod_cast (by omega : c < (0 : ℤ))
      rw [if_neg (by linarith), if_pos this]
  obtain ⟨k1, k2, k3, k4⟩ := key (b - a) (by push_cast; ring)
  have hstep : (b = a + 1 ∨ b = a - 1) → p = false := by
    intro h1
    cases p with
    | false => rfl
    | true =>
      exfalso
      have := hp.1 rfl
      rcases h1 with rfl | rfl <;> norm_num at this
  unfold flipSign
  rcases h with rfl | rfl | ⟨rfl, ⟨rfl, rfl⟩ | ⟨rfl, rfl⟩⟩
  · rw [hstep (Or.inr (by ring))]
    right
    refine ⟨?_, by simpa using k2 (by ring)⟩
    unfold prevA
    rw [if_neg]
    · ring
    · rintro ⟨rfl, h2⟩
      simp only [inAxis] at ha hb
      omega
  · rw [hstep (Or.inl rfl)]
    left
    refine ⟨?_, by simpa using k1 (by ring)⟩
    unfold succA
    rw [if_neg]
    rintro ⟨rfl, h2⟩
    simp only [inAxis] at ha hb
    omega
  · have : p = true := hp.2 (by rw [lt_abs]; right; omega)
    rw [this]
    right
    refine ⟨?_, by rw [if_pos rfl, k3 (by omega)]⟩
    unfold prevA
    rw [if_pos ⟨rfl, rfl⟩]
  · have : p = true := hp.2 (by rw [lt_abs]; left; omega)
    rw [this]
    left
    refine ⟨?_, by rw [if_pos rfl, k4 (by omega), neg_neg]⟩
    unfold succA
    rw [if_pos ⟨rfl, rfl⟩]

/-- The point one step away. -/
def stepPt (dims : Fin 3 → ℕ) (bds : Fin 3 → Bd) (x : V) (i : Fin 3) (s : ℚ) : V :=
  Function.update x i (if s = 1 then succA (bds i) (dims i) (x i) else prevA (bds i) (dims i) (x i))

theorem sgn_zero : sgn 0 = 0 := by unfold sgn; norm_num

theorem edge_leaves {dims : Fin 3 → ℕ} {bds : Fin 3 → Bd} (hd : ∀ i, 2 ≤ dims i) {x y : V}
    (hx : isNode dims bds x) (hy : isNode dims bds y) (ha : adjacent dims bds x y) (p : Bool)
    (hp : p = true ↔ ∃ i, 1 < |x i - y i|) :
    ∃ i s, s ≠ 0 ∧ leaves (toPt x) (toPt y) p = unitPt i s ∧ y = stepPt dims bds x i s ∧ x i ≠ y i ∧
      ∀ j, j ≠ i → x j = y j := by
  obtain ⟨i, hn, hj⟩ := ha
  have hne : x i ≠ y i := by
    intro hc
    rw [hc] at hn
    rcases hn with h | h | ⟨_, ⟨h1, h2⟩ | ⟨h1, h2⟩⟩
    · omega
    · omega
    · have := hd i; omega
    · have := hd i; omega
  have hp' : p = true ↔ 1 < |x i - y i| := by
    rw [hp]
    constructor
    · rintro ⟨j, h⟩
      by_cases hji : j = i
      · rw [← hji]; exact h
      · rw [hj j hji, sub_self, abs_zero] at h; omega
    · intro h; exact ⟨i, h⟩
  have hlv : leaves (toPt x) (toPt y) p = unitPt i (flipSign p ((y i : ℚ) - x i)) := by
    rw [leaves_eq]
    have h0 : ∀ j, j ≠ i → ((y j : ℚ) - x j) = 0 := by
      intro j h; rw [hj j h, sub_self]
    unfold dir unitPt flipSign toPt
    cases p
    · simp only [Bool.false_eq_true, if_false, one_mul, Prod.mk.injEq]
      refine ⟨?_, ?_, ?_⟩
      · by_cases h : i = 0
        · subst h; simp
        · rw [if_neg h, h0 0 (Ne.symm h), sgn_zero]
      · by_cases h : i = 1
        · subst h; simp
        · rw [if_neg h, h0 1 (Ne.symm h), sgn_zero]
      · by_cases h : i = 2
        · subst h; simp
        · rw [if_neg h, h0 2 (Ne.symm h), sgn_zero]
    · simp only [if_true, neg_mul, one_mul, Prod.mk.injEq]
      refine ⟨?_, ?_, ?_⟩
      · by_cases h : i = 0
        · subst h; simp
        · rw [if_neg h, h0 0 (Ne.symm h), sgn_zero, neg_zero]
      · by_cases h : i = 1
        · subst h; simp
        · rw [if_neg h, h0 1 (Ne.symm h), sgn_zero, neg_zero]
      · by_cases h : i = 2
        · subst h; simp
        · rw [if_neg h, h0 2 (Ne.symm h), sgn_zero, neg_zero]
  rcases axis_step (hd i) (hx.1 i) (hy.1 i) hn p hp' with ⟨h1, h2⟩ | ⟨h1, h2⟩
  · refine ⟨i, 1, one_ne_zero, by rw [hlv, h2], ?_, hne, hj⟩
    unfold stepPt
    rw [if_pos rfl, ← h1]
    exact eq_update_of hj
  · refine ⟨i, -1, by norm_num, by rw [hlv, h2], ?_, hne, hj⟩
    unfold stepPt
    rw [if_neg (by norm_num), ← h1]
    exact eq_update_of hj

/-! ### The lattice -/

section

variable {o : SetOrder} {ec : Ec} {b : Boundaries} {dims : Fin 3 → ℕ} {pol : Option (V → V → ℤ)} {code : Code}

theorem code_graph (hc : surfaceCode o ec b dims pol = some code) :
    code.graph = rhgGraph dims (boundsOf ec b) pol (o.ord 0 (denested dims (boundsOf ec b))) ∧
      code.ec = ec ∧ code.boundaries = b ∧ code.dims = dims := by
  unfold surfaceCode at hc
  simp only at hc
  split_ifs at hc
  rw [← Option.some.inj hc]
  exact ⟨rfl, rfl, rfl, rfl⟩

theorem oriented_edge (hd : ∀ i, 2 ≤ dims i) (hc : surfaceCode o ec b dims pol = some code)
    {oriented : List (V × V × Bool)} (ho : Oriented code oriented) {e : V × V × Bool} (he : e ∈ oriented) :
    s(e.1, e.2.1) ∈ PyDict.keys code.graph.edges ∧
    isNode dims (boundsOf ec b) e.1 ∧ isNode dims (boundsOf ec b) e.2.1 ∧
      adjacent dims (boundsOf ec b) e.1 e.2.1 ∧ (e.2.2 = true ↔ ∃ i, 1 < |e.1 i - e.2.1 i|) := by
  obtain ⟨hgr, _⟩ := code_graph hc
  have hm : (s(e.1, e.2.1), e.2.2) ∈ code.graph.edges.map fun e => (e.1, e.2.2) :=
    ho.mem_iff.1 (List.mem_map_of_mem (f := fun e : V × V × Bool => (s(e.1, e.2.1), e.2.2)) he)
  obtain ⟨⟨k, w, p⟩, hf, hfe⟩ := List.mem_map.1 hm
  simp only [Prod.mk.injEq] at hfe
  obtain ⟨rfl, rfl⟩ := hfe
  have hk : s(e.1, e.2.1) ∈ PyDict.keys code.graph.edges := List.mem_map_of_mem (f := (·.1)) hf
  refine ⟨hk, ?_⟩
  rw [hgr] at hk hf
  obtain ⟨h1, h2, h3⟩ := (C22_edges (goodDims_of_two hd _) pol (o.perm 0 _) _ _).1 hk
  exact ⟨h1, h2, h3, (C22_attributes hd pol (o.perm 0 _) _ _ _ _ hf).2⟩

theorem code_nodes (hd : ∀ i, 2 ≤ dims i) (hc : surfaceCode o ec b dims pol = some code) (x : V) :
    x ∈ PyDict.keys code.graph.nodes ↔ isNode dims (boundsOf ec b) x := by
  rw [(code_graph hc).1]
  exact C22_nodes (goodDims_of_two hd _) pol (o.perm 0 _) x

theorem adjacent_comm' {dims : Fin 3 → ℕ} {bds : Fin 3 → Bd} {x y : V} (h : adjacent dims bds x y) :
    adjacent dims bds y x := by
  obtain ⟨i, hn, hj⟩ := h
  refine ⟨i, ?_, fun j h => (hj j h).symm⟩
  unfold nextTo at hn ⊢
  tauto

/-- Both orientations of the edges. -/
def bothWays (oriented : List (V × V × Bool)) : List (V × V × Bool) :=
  oriented.flatMap fun e => [(e.1, e.2.1, e.2.2), (e.2.1, e.1, e.2.2)]

theorem oriented_keys_nodup (hc : surfaceCode o ec b dims pol = some code)
    {oriented : List (V × V × Bool)} (ho : Oriented code oriented) :
    (oriented.map fun e => s(e.1, e.2.1)).Nodup := by
  have h1 : (oriented.map fun e => s(e.1, e.2.1)).Perm (PyDict.keys code.graph.edges) := by
    have := List.Perm.map (·.1) ho
    rw [List.map_map, List.map_map] at this
    exact this
  rw [h1.nodup_iff, (code_graph hc).1]
  exact (rhgGraph_built _ _ _ _).edgesNd

theorem bothWays_nodup (hd : ∀ i, 2 ≤ dims i) (hc : surfaceCode o ec b dims pol = some code)
    {oriented : List (V × V × Bool)} (ho : Oriented code oriented) :
    ((bothWays oriented).map fun e => (e.1, e.2.1)).Nodup := by
  have hk := oriented_keys_nodup hc ho
  have hne : ∀ e ∈ oriented, e.1 ≠ e.2.1 := by
    intro e he hcontra
    obtain ⟨_, h1, h2, h3, h4⟩ := oriented_edge hd hc ho he
    obtain ⟨i, _, _, _, _, hi, _⟩ := edge_leaves hd h1 h2 h3 _ h4
    exact hi (congrFun hcontra i)
  clear ho
  unfold bothWays
  induction oriented with
  | nil => simp
  | cons e l ih =>
    rw [List.map_cons, List.nodup_cons] at hk
    have ih := ih hk.2 fun e he => hne e (List.mem_cons_of_mem _ he)
    rw [List.flatMap_cons, List.map_append, List.nodup_append]
    refine ⟨?_, ih, ?_⟩
    · have := hne e (by simp)
      simp only [List.map_cons, List.map_nil, List.nodup_cons, List.mem_singleton, Prod.mk.injEq, not_and,
        List.not_mem_nil, not_false_eq_true, List.nodup_nil, and_true]
      intro h; exact absurd h this
    · intro x hx y hy hxy
      subst hxy
      obtain ⟨f, hf, hfx⟩ := List.mem_map.1 hy
      obtain ⟨g, hg, hgf⟩ := List.mem_flatMap.1 hf
      apply hk.1
      rw [List.mem_map]
      refine ⟨g, hg, ?_⟩
      simp only [List.map_cons, List.map_nil, List.mem_cons, List.not_mem_nil, or_false] at hx hgf
      rw [Sym2.eq_iff]
      rcases hx with rfl | rfl <;> rcases hgf with rfl | rfl <;> simp only [Prod.mk.injEq] at hfx
      · left; exact hfx
      · right; exact ⟨hfx.2, hfx.1⟩
      · right; exact hfx
      · left; exact ⟨hfx.2, hfx.1⟩

theorem mem_bothWays (hd : ∀ i, 2 ≤ dims i) (hc : surfaceCode o ec b dims pol = some code)
    {oriented : List (V × V × Bool)} (ho : Oriented code oriented) {e : V × V × Bool} (he : e ∈ bothWays oriented) :
    isNode dims (boundsOf ec b) e.1 ∧ isNode dims (boundsOf ec b) e.2.1 ∧
      adjacent dims (boundsOf ec b) e.1 e.2.1 ∧ (e.2.2 = true ↔ ∃ i, 1 < |e.1 i - e.2.1 i|) := by
  obtain ⟨g, hg, hge⟩ := List.mem_flatMap.1 he
  obtain ⟨_, h1, h2, h3, h4⟩ := oriented_edge hd hc ho hg
  simp only [List.mem_cons, List.not_mem_nil, or_false] at hge
  rcases hge with rfl | rfl
  · exact ⟨h1, h2, h3, h4⟩
  · refine ⟨h2, h1, adjacent_comm' h3, ?_⟩
    rw [h4]
    simp only [abs_sub_comm]

theorem canGraph_lattice (hd : ∀ i, 2 ≤ dims i) (hc : surfaceCode o ec b dims pol = some code)
    {oriented : List (V × V × Bool)} (ho : Oriented code oriented) : Lattice (canGraph code oriented) := by
  refine ⟨?_, ?_, ?_, ?_, ?_⟩
  · refine List.Nodup.map toPt_inj ?_
    rw [(code_graph hc).1]
    exact (rhgGraph_built _ _ _ _).nodesNd
  · intro p hp
    obtain ⟨x, _, rfl⟩ := List.mem_map.1 hp
    exact ⟨x 0, x 1, x 2, rfl⟩
  · intro e he
    obtain ⟨f, hf, rfl⟩ := List.mem_map.1 he
    obtain ⟨_, h1, h2, _⟩ := oriented_edge hd hc ho hf
    exact ⟨List.mem_map_of_mem ((code_nodes hd hc _).2 h1), List.mem_map_of_mem ((code_nodes hd hc _).2 h2)⟩
  · intro e he
    obtain ⟨f, hf, rfl⟩ := List.mem_map.1 he
    obtain ⟨_, h1, h2, h3, h4⟩ := oriented_edge hd hc ho hf
    obtain ⟨i, _, _, _, _, hi, hj⟩ := edge_leaves hd h1 h2 h3 _ h4
    unfold toPt
    simp only [ne_eq, Int.cast_inj]
    fin_cases i
    · left; exact ⟨hi, hj 1 (by decide), hj 2 (by decide)⟩
    · right; left; exact ⟨hj 0 (by decide), hi, hj 2 (by decide)⟩
    · right; right; exact ⟨hj 0 (by decide), hj 1 (by decide), hi⟩
  · have e1 : ((canGraph code oriented).edges.flatMap fun e =>
        [(e.1, leaves e.1 e.2.1 e.2.2), (e.2.1, leaves e.2.1 e.1 e.2.2)]) =
        (bothWays oriented).map fun e => (toPt e.1, leaves (toPt e.1) (toPt e.2.1) e.2.2) := by
      unfold canGraph bothWays
      rw [List.flatMap_map, List.map_flatMap]
      rfl
    rw [e1]
    have hnd := bothWays_nodup hd hc ho
    have hnd' : (bothWays oriented).Nodup := List.Nodup.of_map _ hnd
    rw [List.nodup_map_iff_inj_on hnd']
    intro e he f hf hef
    simp only [Prod.mk.injEq] at hef
    obtain ⟨h1, h2, h3, h4⟩ := mem_bothWays hd hc ho he
    obtain ⟨k1, k2, k3, k4⟩ := mem_bothWays hd hc ho hf
    obtain ⟨i, s, hs, hl, hy, _⟩ := edge_leaves hd h1 h2 h3 _ h4
    obtain ⟨j, t, ht, hl', hy', _⟩ := edge_leaves hd k1 k2 k3 _ k4
    have hx := toPt_inj hef.1
    rw [hl, hl'] at hef
    obtain ⟨rfl, rfl⟩ := unitPt_inj hs ht hef.2
    refine (List.nodup_map_iff_inj_on hnd').1 hnd e he f hf ?_
    rw [hx, hy, hy', hx]

theorem canGraph_degree (hd : ∀ i, 2 ≤ dims i) (hc : surfaceCode o ec b dims pol = some code)
    {oriented : List (V × V × Bool)} (ho : Oriented code oriented) (x : V) :
    degree (canGraph code oriented) (toPt x) = (edgesAt code.graph x).length := by
  unfold degree canGraph edgesAt
  simp only
  rw [List.filter_map, List.length_map]
  have h1 := ((ho.filter fun e => decide (x ∈ e.1)).length_eq)
  rw [List.filter_map, List.length_map, List.filter_map, List.length_map] at h1
  rw [show (code.graph.edges.filter fun e => decide (x ∈ e.1)) =
    code.graph.edges.filter ((fun e : Sym2 V × Bool => decide (x ∈ e.1)) ∘ fun e => (e.1, e.2.2)) from rfl, ← h1]
  congr 1
  apply List.filter_congr
  intro e _
  simp only [Function.comp, toPt_inj.eq_iff, decide_eq_decide, Sym2.mem_iff]
  constructor
  · rintro (h | h)
    · left; exact h.symm
    · right; exact h.symm
  · rintro (h | h)
    · left; exact h.symm
    · right; exact h.symm

theorem nb_nonempty {bd : Bd} {d : ℕ} {a : ℤ} (hd : 2 ≤ d) (ha : inAxis bd d a) : 1 ≤ (nb bd d a).card := by
  rw [Nat.one_le_iff_ne_zero, Finset.card_ne_zero]
  by_cases h : inAxis bd d (a + 1)
  · exact ⟨a + 1, mem_nb.2 ⟨h, Or.inr (Or.inl rfl)⟩⟩
  · refine ⟨a - 1, mem_nb.2 ⟨?_, Or.inl (by ring)⟩⟩
    cases bd <;> simp only [inAxis] at * <;> omega

/-- Degrees of the nodes of a code. -/
theorem code_degree (hd : ∀ i, 2 ≤ dims i) (hc : surfaceCode o ec b dims pol = some code) {x : V}
    (hx : x ∈ PyDict.keys code.graph.nodes) :
    1 ≤ (edgesAt code.graph x).length ∧ (edgesAt code.graph x).length ≤ 4 ∧
      (b = .periodic → (edgesAt code.graph x).length = 4) := by
  rw [code_nodes hd hc] at hx
  rw [(code_graph hc).1]
  have hg := goodDims_of_two hd (boundsOf ec b)
  refine ⟨?_, (C22_degree hg pol (o.perm 0 _)).2 x hx, ?_⟩
  · obtain ⟨hb, i, hi⟩ := isNode_iff.1 hx
    obtain ⟨j, hj⟩ := other_axis i
    obtain ⟨k, hk, hkj, hall⟩ := third_axis i j hj
    rw [degree_eq hg pol (fun _ => (o.perm 0 _).mem_iff) hb hi hj hk hkj.symm hall]
    have := nb_nonempty (hd j) (hb j)
    omega
  · rintro rfl
    refine degree_periodic hg pol (fun _ => (o.perm 0 _).mem_iff) ?_ hd hx
    intro i
    cases ec <;> fin_cases i <;> rfl

end

end Flamingpy.Noise
