import Verif.Proofs.Macronize

/-! # C20: `macronize` -/

namespace Flamingpy.Macronize

open Flamingpy Flamingpy.EGraph

/-! ### Specification -/

/-- Direction in which an edge leaves `u` towards `v`: the sign of the coordinate differences,
reversed for a periodic edge (which leaves through the other side of the lattice). -/
def leaves (u v : Pt) (periodic : Bool) : Pt :=
  let s (x : ℚ) : ℚ := if 0 < x then 1 else if x < 0 then -1 else 0
  if periodic then (-s (v.1 - u.1), -s (v.2.1 - u.2.1), -s (v.2.2 - u.2.2))
  else (s (v.1 - u.1), s (v.2.1 - u.2.1), s (v.2.2 - u.2.2))

/-- A lattice graph: distinct nodes with integer coordinates; every edge joins two nodes that
differ in exactly one coordinate; no two edges leave a node in the same direction. -/
structure Lattice (G : CanGraph) : Prop where
  nodes_nodup : G.nodes.Nodup
  integral : ∀ p ∈ G.nodes, ∃ a b c : ℤ, p = ((a : ℚ), (b : ℚ), (c : ℚ))
  ends : ∀ e ∈ G.edges, e.1 ∈ G.nodes ∧ e.2.1 ∈ G.nodes
  axis_parallel : ∀ e ∈ G.edges,
    (e.1.1 ≠ e.2.1.1 ∧ e.1.2.1 = e.2.1.2.1 ∧ e.1.2.2 = e.2.1.2.2) ∨
    (e.1.1 = e.2.1.1 ∧ e.1.2.1 ≠ e.2.1.2.1 ∧ e.1.2.2 = e.2.1.2.2) ∨
    (e.1.1 = e.2.1.1 ∧ e.1.2.1 = e.2.1.2.1 ∧ e.1.2.2 ≠ e.2.1.2.2)
  directions : (G.edges.flatMap fun e =>
    [(e.1, leaves e.1 e.2.1 e.2.2), (e.2.1, leaves e.2.1 e.1 e.2.2)]).Nodup

/-- The point at distance `t` from `v` in the direction `d`. -/
def shift (t : ℚ) (v d : Pt) : Pt := (v.1 + t * d.1, v.2.1 + t * d.2.1, v.2.2 + t * d.2.2)

/-- Number of edges at `v`. -/
def degree (G : CanGraph) (v : Pt) : ℕ :=
  (G.edges.filter fun e => decide (e.1 = v ∨ e.2.1 = v)).length

/-- Number of edges of the macronode graph at a micronode. -/
def microDegree (m : MG) (p : Pt) : ℕ := (m.edges.filter fun e => decide (e.1 = p ∨ e.2 = p)).length

/-- `macro_dict[v]`, the empty list if absent. -/
def micros (m : MG) (v : Pt) : List Pt := (PyDict.get? m.dict v).getD []

/-! ### Proof -/

theorem leaves_eq (u v : Pt) (b : Bool) : leaves u v b = dir u v b := by
  unfold leaves dir sgn
  have key : ∀ x : ℚ, -(if 0 < x then (1 : ℚ) else if x < 0 then -1 else 0) =
      -1 * (if 0 < x then 1 else if x < 0 then -1 else 0) := fun x => by ring
  cases b
  · simp only [Bool.false_eq_true, if_false, one_mul]
  · simp only [if_true, key]

theorem Lattice.ne {G : CanGraph} (h : Lattice G) : ∀ e ∈ G.edges, e.1 ≠ e.2.1 := by
  intro e he hc
  rcases h.axis_parallel e he with ⟨h1, _, _⟩ | ⟨_, h1, _⟩ | ⟨_, _, h1⟩
  · exact h1 (congrArg (fun p : Pt => p.1) hc)
  · exact h1 (congrArg (fun p : Pt => p.2.1) hc)
  · exact h1 (congrArg (fun p : Pt => p.2.2) hc)

/-- The (node, direction) pairs. -/
def outs (es : List (Pt × Pt × Bool)) : List (Pt × Pt) :=
  es.flatMap fun e => [(e.1, dir e.1 e.2.1 e.2.2), (e.2.1, dir e.2.1 e.1 e.2.2)]

theorem halves_eq (t : ℚ) (es : List (Pt × Pt × Bool)) :
    halves t es = (outs es).map fun o => (o.1, displace t o.1 o.2) := by
  unfold halves outs
  rw [List.map_flatMap]
  rfl

theorem outs_spec {es : List (Pt × Pt × Bool)} {o : Pt × Pt} (h : o ∈ outs es) :
    ((o.2.1 = 1 ∨ o.2.1 = -1 ∨ o.2.1 = 0) ∧ (o.2.2.1 = 1 ∨ o.2.2.1 = -1 ∨ o.2.2.1 = 0) ∧
      (o.2.2.2 = 1 ∨ o.2.2.2 = -1 ∨ o.2.2.2 = 0)) ∧ ∃ e ∈ es, o.1 = e.1 ∨ o.1 = e.2.1 := by
  unfold outs at h
  obtain ⟨e, he, ho⟩ := List.mem_flatMap.mp h
  simp only [List.mem_cons, List.not_mem_nil, or_false] at ho
  rcases ho with rfl | rfl
  · exact ⟨dir_cases _ _ _, e, he, Or.inl rfl⟩
  · exact ⟨dir_cases _ _ _, e, he, Or.inr rfl⟩

theorem size_halves (t : ℚ) (es : List (Pt × Pt × Bool)) (hne : ∀ e ∈ es, e.1 ≠ e.2.1) (v : Pt) :
    size (halves t es) v = (es.filter fun e => decide (e.1 = v ∨ e.2.1 = v)).length := by
  induction es with
  | nil => rfl
  | cons e es ih =>
    have h1 : halves t (e :: es) = [(e.1, displace t e.1 (dir e.1 e.2.1 e.2.2)),
      (e.2.1, displace t e.2.1 (dir e.2.1 e.1 e.2.2))] ++ halves t es := by simp [halves]
    rw [h1, size_append, ih fun e he => hne e (List.mem_cons_of_mem _ he), List.filter_cons]
    have := hne e (by simp)
    unfold size
    by_cases h2 : e.1 = v
    · have h3 : e.2.1 ≠ v := fun hc => this (h2.trans hc.symm)
      simp [h2, h3]; omega
    · by_cases h3 : e.2.1 = v
      · simp [h2, h3]; omega
      · simp [h2, h3]

/-- All (macronode, micronode) pairs of the result. -/
def allPairs (G : CanGraph) (pad : Bool) (t : ℚ) : List (Pt × Pt) :=
  halves t G.edges ++ if pad then G.nodes.flatMap fun v => pads v (4 - size (halves t G.edges) v) else []

theorem mem_allPairs_round {G : CanGraph} (h : Lattice G) {pad : Bool} {t : ℚ} (h0 : 0 < t) (h1 : t < 1/2)
    {x : Pt × Pt} (hx : x ∈ allPairs G pad t) : x.1 ∈ G.nodes ∧ roundPt x.2 = x.1 := by
  unfold allPairs at hx
  rcases List.mem_append.mp hx with hx | hx
  · rw [halves_eq] at hx
    obtain ⟨o, ho, rfl⟩ := List.mem_map.mp hx
    obtain ⟨hd, e, he, hoe⟩ := outs_spec ho
    have hn : o.1 ∈ G.nodes := by
      rcases hoe with hoe | hoe <;> rw [hoe]
      exacts [(h.ends e he).1, (h.ends e he).2]
    exact ⟨hn, roundPt_displace h0.le h1 (h.integral _ hn) hd⟩
  · cases pad with
    | false => simp at hx
    | true =>
      simp only [if_true] at hx
      obtain ⟨v, hv, hx⟩ := List.mem_flatMap.mp hx
      obtain ⟨i, _, rfl⟩ := List.mem_map.mp hx
      exact ⟨hv, roundPt_bump (h.integral v hv) i⟩

theorem allPairs_nodup {G : CanGraph} (h : Lattice G) {pad : Bool} {t : ℚ} (h0 : 0 < t) (h1 : t < 1/2)
    (hp : pad = true → t ≠ 1/20 ∧ ∀ v ∈ G.nodes, 1 ≤ degree G v) :
    ((allPairs G pad t).map (·.2)).Nodup := by
  have hdir : (outs G.edges).Nodup := by
    have := h.directions
    simp only [leaves_eq] at this
    exact this
  -- equal micronodes belong to equal macronodes
  have hround : ∀ x ∈ allPairs G pad t, ∀ y ∈ allPairs G pad t, x.2 = y.2 → x.1 = y.1 := by
    intro x hx y hy hxy
    rw [← (mem_allPairs_round h h0 h1 hx).2, ← (mem_allPairs_round h h0 h1 hy).2, hxy]
  rw [List.nodup_map_iff_inj_on]
  · intro x hx y hy hxy
    exact Prod.ext (hround x hx y hy hxy) hxy
  · unfold allPairs at hround ⊢
    rw [List.nodup_append]
    refine ⟨?_, ?_, ?_⟩
    · rw [halves_eq]
      apply List.Nodup.map _ hdir
      rintro ⟨o1, o2⟩ ⟨o3, o4⟩ ho
      simp only [Prod.mk.injEq] at ho
      obtain ⟨rfl, ho⟩ := ho
      rw [displace_inj h0.ne' ho]
    · cases pad with
      | false => simp
      | true =>
        simp only [if_true]
        rw [List.nodup_flatMap]
        refine ⟨?_, ?_⟩
        · intro v hv
          unfold pads
          rw [List.nodup_map_iff_inj_on List.nodup_range]
          intro i hi j hj hij
          simp only [Prod.mk.injEq, true_and] at hij
          have hs : 1 ≤ size (halves t G.edges) v := by
            rw [size_halves t _ h.ne]; exact (hp rfl).2 v hv
          rw [List.mem_range] at hi hj
          exact bump_inj (by omega) (by omega) hij
        · apply h.nodes_nodup.imp
          intro v w hvw
          simp only [Function.onFun, List.disjoint_left]
          intro x hx hx'
          obtain ⟨i, _, rfl⟩ := List.mem_map.mp hx
          obtain ⟨j, _, hj⟩ := List.mem_map.mp hx'
          exact hvw (congrArg (fun p : Pt × Pt => p.1) hj).symm
    · intro x hx y hy hxy
      subst hxy
      cases pad with
      | false => simp at hy
      | true =>
        simp only [if_true] at hy
        obtain ⟨v, hv, hy⟩ := List.mem_flatMap.mp hy
        obtain ⟨i, _, rfl⟩ := List.mem_map.mp hy
        rw [halves_eq] at hx
        obtain ⟨o, ho, hoe⟩ := List.mem_map.mp hx
        simp only [Prod.mk.injEq] at hoe
        rw [hoe.1] at hoe
        exact bump_ne_displace (hp rfl).1 h0 (outs_spec ho).1 i hoe.2.symm

/-- **C20.** For every lattice graph and every displacement `0 < disp ≤ 0.49` (when padding: also
at most 0.04 or at least 0.06, and every node of degree 1 to 4), `macronize` succeeds and

* the lists of `macro_dict` contain every micronode exactly once, and the micronodes listed under
  `v` round to `v`;
* macronode `v` holds `degree v` micronodes, exactly 4 with padding;
* there is one edge per edge of the input, in the same order, joining a micronode of the one end
  to a micronode of the other end;
* every micronode has exactly one edge; with padding, exactly `4 - degree v` micronodes of `v`
  have none and the others have one;
* no macronode is empty and no two edges share an end;
* the ends of an edge are displaced from their macronodes, towards each other (away from each other for a periodic
  edge), by `disp` rounded to at least two significant digits. -/
theorem C20_macronize {G : CanGraph} (h : Lattice G) {pad : Bool} {disp : ℚ} (h0 : 0 < disp)
    (h1 : disp ≤ 49 / 100)
    (hp : pad = true → (disp ≤ 4 / 100 ∨ 6 / 100 ≤ disp) ∧ ∀ v ∈ G.nodes, 1 ≤ degree G v ∧ degree G v ≤ 4)
    (hpp : G.perfectPoints = none) :
    ∃ m, macronize G pad disp = .ok m ∧
      m.nodes.Nodup ∧ (m.dict.map (·.1)).Nodup ∧ (m.dict.flatMap (·.2)).Perm m.nodes ∧
      (∀ v, ∀ p ∈ micros m v, v ∈ G.nodes ∧ roundPt p = v) ∧
      (∀ v ∈ G.nodes, (micros m v).length = if pad then 4 else degree G v) ∧
      List.Forall₂ (fun e f => f.1 ∈ micros m e.1 ∧ f.2 ∈ micros m e.2.1) G.edges m.edges ∧
      (∀ p ∈ m.nodes, microDegree m p = 1 ∨ (pad = true ∧ microDegree m p = 0)) ∧
      (∀ v ∈ G.nodes, ((micros m v).filter fun p => decide (microDegree m p = 1)).length = degree G v) ∧
      (∀ e ∈ m.dict, e.2 ≠ []) ∧ (m.edges.flatMap fun e => [e.1, e.2]).Nodup ∧ m.perfectPoints = none ∧
      ∃ t : ℚ, 0 < t ∧ t < 1 / 2 ∧ |t - disp| ≤ disp / 20 ∧
        m.edges = G.edges.map fun e => (shift t e.1 (leaves e.1 e.2.1 e.2.2), shift t e.2.1 (leaves e.2.1 e.1 e.2.2)) := by
  have t0 := delta_pos h0
  have t1 : delta disp < 1/2 := by
    have := (delta_bounds (disp := disp) 49).1 (by push_cast; linarith)
    push_cast at this; linarith
  have t2 : pad = true → delta disp ≠ 1/20 ∧ ∀ v ∈ G.nodes, 1 ≤ degree G v := by
    intro hpad
    refine ⟨?_, fun v hv => ((hp hpad).2 v hv).1⟩
    rcases (hp hpad).1 with hd | hd
    · have := (delta_bounds (disp := disp) 4).1 (by push_cast; linarith)
      push_cast at this; intro hc; rw [hc] at this; norm_num at this
    · have := (delta_bounds (disp := disp) 6).2 (by push_cast; linarith)
      push_cast at this; intro hc; rw [hc] at this; norm_num at this
  have hnd := allPairs_nodup h t0 t1 t2
  have hr0 : Rep { nodes := [], edges := [], dict := [] } [] [] :=
    ⟨rfl, rfl, by simp, by simp [PyDict.keys], fun k => by simp [PyDict.get?_nil], by simp [flat], rfl⟩
  have hr1 := rep_edges disp G.edges hr0 h.ne (by
    rw [List.nil_append]
    unfold allPairs at hnd
    rw [List.map_append, List.nodup_append] at hnd
    exact hnd.1)
  simp only [List.nil_append] at hr1
  obtain ⟨m, hm, hrep⟩ : ∃ m, (if pad then G.nodes.foldlM padStep
      (G.edges.foldl (edgeStep disp) { nodes := [], edges := [], dict := [] }) else
      some (G.edges.foldl (edgeStep disp) { nodes := [], edges := [], dict := [] })) = some m ∧
      Rep m (allPairs G pad (delta disp)) (bars (delta disp) G.edges) := by
    cases pad with
    | false => exact ⟨_, rfl, by simpa [allPairs] using hr1⟩
    | true =>
      have := rep_padAll G.nodes h.nodes_nodup hr1 (by
        intro v hv; rw [size_halves _ _ h.ne]; exact (t2 rfl).2 v hv) (by simpa [allPairs] using hnd)
      simpa [allPairs] using this
  have hmac : macronize G pad disp = .ok m := by
    unfold macronize
    rw [if_neg (by push Not; constructor <;> linarith), if_neg (by rintro ⟨hc, _⟩; linarith)]
    simp only [hm, hpp]
  have hmic : ∀ v, micros m v = ((allPairs G pad (delta disp)).filter fun x => decide (x.1 = v)).map (·.2) := by
    intro v
    unfold micros
    rw [hrep.get]
    split_ifs with hc
    · rw [hc]; rfl
    · rfl
  have hsz : ∀ v, (micros m v).length = size (allPairs G pad (delta disp)) v := by
    intro v; rw [hmic]; unfold size; rw [List.length_map]
  -- the ends of the edges are the first pairs
  have hends : (bars (delta disp) G.edges).flatMap (fun e => [e.1, e.2]) =
      (halves (delta disp) G.edges).map (·.2) := by
    unfold bars halves
    rw [List.flatMap_map, List.map_flatMap]
    rfl
  have hendnd : ((bars (delta disp) G.edges).flatMap fun e => [e.1, e.2]).Nodup := by
    rw [hends]
    unfold allPairs at hnd
    rw [List.map_append, List.nodup_append] at hnd
    exact hnd.1
  have hdeg : ∀ p, microDegree m p = if p ∈ (halves (delta disp) G.edges).map (·.2) then 1 else 0 := by
    intro p
    unfold microDegree
    rw [hrep.edges, count_end hendnd, hends]
  have hpadsz : pad = true → ∀ v ∈ G.nodes, size (G.nodes.flatMap fun v =>
      pads v (4 - size (halves (delta disp) G.edges) v)) v = 4 - degree G v := by
    intro hpad v hv
    have gen : ∀ (vs : List Pt), vs.Nodup → v ∈ vs → ∀ n : Pt → ℕ,
        size (vs.flatMap fun w => pads w (n w)) v = n v := by
      intro vs hvs hv n
      induction vs with
      | nil => cases hv
      | cons w vs ih =>
        rw [List.flatMap_cons, size_append]
        rw [List.nodup_cons] at hvs
        rcases List.mem_cons.mp hv with rfl | hv
        · rw [size_pads_self]
          have : size (vs.flatMap fun w => pads w (n w)) v = 0 := by
            unfold size
            rw [List.length_eq_zero_iff, List.filter_eq_nil_iff]
            intro x hx
            obtain ⟨w, hw, hx⟩ := List.mem_flatMap.mp hx
            obtain ⟨i, _, rfl⟩ := List.mem_map.mp hx
            simp only [decide_eq_true_eq]
            rintro rfl; exact hvs.1 hw
          rw [this, add_zero]
        · rw [size_pads_ne (by rintro rfl; exact hvs.1 hv), zero_add]
          exact ih hvs.2 hv
    rw [gen G.nodes h.nodes_nodup hv, size_halves _ _ h.ne]
    rfl
  refine ⟨m, hmac, by rw [hrep.nodes]; exact hnd, hrep.knd, by rw [hrep.nodes]; exact hrep.flat, ?_, ?_, ?_, ?_, ?_, ?_,
    by rw [hrep.edges]; exact hendnd, hrep.pp, delta disp, t0, t1, delta_close h0, ?_⟩
  · intro v p hpm
    rw [hmic] at hpm
    obtain ⟨x, hx, rfl⟩ := List.mem_map.mp hpm
    rw [List.mem_filter, decide_eq_true_eq] at hx
    have := mem_allPairs_round h t0 t1 hx.1
    rw [hx.2] at this
    exact this
  · intro v hv
    rw [hsz]
    unfold allPairs
    rw [size_append, size_halves _ _ h.ne]
    cases pad with
    | false => simp [size, degree]
    | true =>
      simp only [if_true]
      rw [hpadsz rfl v hv]
      have := ((hp rfl).2 v hv)
      unfold degree at this ⊢
      omega
  · rw [hrep.edges]
    unfold bars
    rw [List.forall₂_map_right_iff]
    have : ∀ e ∈ G.edges, (displace (delta disp) e.1 (dir e.1 e.2.1 e.2.2) ∈ micros m e.1 ∧
        displace (delta disp) e.2.1 (dir e.2.1 e.1 e.2.2) ∈ micros m e.2.1) := by
      intro e he
      have hh : ∀ x ∈ [(e.1, displace (delta disp) e.1 (dir e.1 e.2.1 e.2.2)),
          (e.2.1, displace (delta disp) e.2.1 (dir e.2.1 e.1 e.2.2))], x.2 ∈ micros m x.1 := by
        intro x hx
        rw [hmic]
        refine List.mem_map.mpr ⟨x, ?_, rfl⟩
        rw [List.mem_filter]
        refine ⟨?_, by simp⟩
        unfold allPairs
        apply List.mem_append_left
        unfold halves
        exact List.mem_flatMap.mpr ⟨e, he, hx⟩
      exact ⟨hh _ List.mem_cons_self, hh _ (List.mem_cons_of_mem _ List.mem_cons_self)⟩
    exact List.forall₂_same.mpr this
  · intro p hpm
    rw [hdeg]
    split_ifs with hc
    · exact Or.inl rfl
    · right
      refine ⟨?_, rfl⟩
      cases pad with
      | true => rfl
      | false =>
        exfalso
        apply hc
        rw [hrep.nodes] at hpm
        simpa [allPairs] using hpm
  · intro v hv
    have hf : ((micros m v).filter fun p => decide (microDegree m p = 1)) =
        (((halves (delta disp) G.edges).filter fun x => decide (x.1 = v))).map (·.2) := by
      rw [hmic]
      unfold allPairs
      rw [List.filter_append, List.map_append, List.filter_append]
      have hA : ((((halves (delta disp) G.edges).filter fun x => decide (x.1 = v))).map (·.2)).filter
          (fun p => decide (microDegree m p = 1)) =
          (((halves (delta disp) G.edges).filter fun x => decide (x.1 = v))).map (·.2) := by
        rw [List.filter_eq_self]
        intro p hpm
        obtain ⟨x, hx, rfl⟩ := List.mem_map.mp hpm
        rw [hdeg, if_pos (List.mem_map_of_mem (f := (·.2)) (List.mem_filter.mp hx).1)]
        simp
      have hB : (((if pad = true then G.nodes.flatMap fun v =>
          pads v (4 - size (halves (delta disp) G.edges) v) else []).filter fun x =>
            decide (x.1 = v)).map (·.2)).filter (fun p => decide (microDegree m p = 1)) = [] := by
        rw [List.filter_eq_nil_iff]
        intro p hpm
        obtain ⟨x, hx, rfl⟩ := List.mem_map.mp hpm
        have hx := (List.mem_filter.mp hx).1
        rw [hdeg, if_neg]
        · simp
        · intro hc
          unfold allPairs at hnd
          rw [List.map_append, List.nodup_append] at hnd
          exact hnd.2.2 _ hc _ (List.mem_map_of_mem (f := (·.2)) hx) rfl
      rw [hA, hB, List.append_nil]
    rw [hf, List.length_map]
    have := size_halves (delta disp) G.edges h.ne v
    unfold size at this
    rw [this]; rfl
  · intro e he hc
    have := (PyDict.get?_iff_mem hrep.knd e.1 e.2).2 he
    rw [hc] at this
    exact hrep.noEmpty e.1 this
  · rw [hrep.edges]
    unfold bars
    apply List.map_congr_left
    intro e _
    simp only [leaves_eq]
    rfl

/-! ### Displacements the code accepts but for which the claim fails -/

/-- One edge. -/
def edgeG : CanGraph := { nodes := [(0, 0, 0), (1, 0, 0)], edges := [((0, 0, 0), (1, 0, 0), false)] }

/-- A path with padding: the middle node has neighbours in both x-directions. -/
def pathG : CanGraph :=
  { nodes := [(0, 0, 0), (1, 0, 0), (2, 0, 0)]
    edges := [((0, 0, 0), (1, 0, 0), false), ((1, 0, 0), (2, 0, 0), false)] }

theorem lattice_edgeG : Lattice edgeG := by
  refine ⟨by decide +kernel, ?_, by decide +kernel, by decide +kernel, by decide +kernel⟩
  intro p hp
  simp only [edgeG, List.mem_cons, List.not_mem_nil, or_false] at hp
  rcases hp with rfl | rfl
  · exact ⟨0, 0, 0, by norm_num⟩
  · exact ⟨1, 0, 0, by norm_num⟩

theorem lattice_pathG : Lattice pathG := by
  refine ⟨by decide +kernel, ?_, by decide +kernel, by decide +kernel, by decide +kernel⟩
  intro p hp
  simp only [pathG, List.mem_cons, List.not_mem_nil, or_false] at hp
  rcases hp with rfl | rfl | rfl
  · exact ⟨0, 0, 0, by norm_num⟩
  · exact ⟨1, 0, 0, by norm_num⟩
  · exact ⟨2, 0, 0, by norm_num⟩

/-- C20: the displacement is checked.  Exactly the displacements `0 ≤ disp < 1/2` are accepted by the
guard: a negative displacement and one of `1/2` or more are rejected with a `ValueError` whatever the
graph, `0` is rejected as soon as there is an edge to shorten, and every other one is accepted (without
padding and perfect points nothing else can fail). -/
theorem C20_rejects (G : CanGraph) (pad : Bool) (disp : ℚ) :
    (disp < 0 ∨ 1 / 2 ≤ disp → macronize G pad disp = .error .valueError) ∧
    (disp = 0 → G.edges ≠ [] → macronize G pad disp = .error .valueError) ∧
    (0 < disp → disp < 1 / 2 → G.perfectPoints = none → ∃ m, macronize G false disp = .ok m) ∧
    (0 < disp → disp < 1 / 2 → macronize G pad disp ≠ .error .valueError) := by
  refine ⟨?_, ?_, ?_, ?_⟩
  · intro h
    unfold macronize
    rw [if_pos (by tauto)]
  · intro h he
    unfold macronize
    rw [if_neg (by rw [h]; norm_num), if_pos ⟨h, he⟩]
  · intro h0 h1 hp
    unfold macronize
    rw [if_neg (by push Not; exact ⟨h1, h0.le⟩), if_neg (by rintro ⟨h, -⟩; exact h0.ne' h)]
    simp only [Bool.false_eq_true, if_false, hp]
    exact ⟨_, rfl⟩
  · intro h0 h1
    unfold macronize
    rw [if_neg (by push Not; exact ⟨h1, h0.le⟩), if_neg (by rintro ⟨h, -⟩; exact h0.ne' h)]
    simp only
    split
    · simp
    · split
      · simp
      · simp
      · split <;> simp

/-- The boundary values on a one-edge graph. -/
example : macronize edgeG false (1 / 2) = .error .valueError ∧
    macronize edgeG false (-1 / 10) = .error .valueError ∧
    ∃ m, macronize edgeG false (1 / 10) = .ok m :=
  ⟨(C20_rejects _ _ _).1 (Or.inr le_rfl), (C20_rejects _ _ _).1 (Or.inl (by norm_num)),
    (C20_rejects _ true _).2.2.1 (by norm_num) (by norm_num) rfl⟩

/-- **C20, perfect points.** When `perfect_points` lists nodes with at least one edge, the result
lists all their micronodes, in order. -/
theorem C20_perfect_points {G : CanGraph} {pad : Bool} {disp : ℚ} {pts : List Pt} (hpt : pts ≠ [])
    {m : MG} (hm : macronize { G with perfectPoints := none } pad disp = .ok m)
    (hk : ∀ p ∈ pts, p ∈ m.dict.map (·.1)) :
    macronize { G with perfectPoints := some pts } pad disp =
      .ok { m with perfectPoints := some (pts.flatMap fun p => micros m p) } := by
  unfold macronize at hm ⊢
  simp only at hm ⊢
  generalize (if pad = true then G.nodes.foldlM padStep
      (G.edges.foldl (edgeStep disp) { nodes := [], edges := [], dict := [] }) else
      some (G.edges.foldl (edgeStep disp) { nodes := [], edges := [], dict := [] })) = r at hm ⊢
  split_ifs at hm ⊢ with c1 c2
  cases r with
  | none => cases hm
  | some m' =>
    simp only [Except.ok.injEq] at hm
    subst hm
    cases pts with
    | nil => exact absurd rfl hpt
    | cons p pts =>
      simp only
      have : (p :: pts).mapM (fun p => PyDict.get? m'.dict p) = some ((p :: pts).map fun p => micros m' p) := by
        rw [mapM_some_iff, List.map_map]
        apply List.map_congr_left
        intro q hq
        obtain ⟨l, hl⟩ := Option.isSome_iff_exists.mp ((PyDict.get?_isSome_iff m'.dict q).mpr (hk q hq))
        simp [micros, hl]
      rw [this]
      simp only [List.flatMap_def]

/-- **C20 fails for `disp` close to 0.5**: 0.4999 is accepted but rounded to 0.5, so the two
micronodes of an edge coincide. -/
theorem C20_false_disp : ∃ m, macronize edgeG false (4999 / 10000) = .ok m ∧ m.nodes.length = 1 := by
  have hd : decimals (4999 / 10000) = 2 := by
    unfold decimals
    have : ⌊(1 : ℚ) / (4999 / 10000)⌋₊ = 2 := by
      rw [Nat.floor_eq_iff (by norm_num)]; norm_num
    rw [this]
    norm_num
  have hs : shortened (4999 / 10000) (0, 0, 0) (1, 0, 0) false = (1/2, 0, 0) := by
    rw [shortened_eq]
    have : delta (4999 / 10000) = 1/2 := by unfold delta; rw [hd]; decide +kernel
    rw [this]
    decide +kernel
  refine ⟨⟨[(1/2, 0, 0)], [((1/2, 0, 0), (1/2, 0, 0))],
    [((0, 0, 0), [(1/2, 0, 0)]), ((1, 0, 0), [(1/2, 0, 0)])], none⟩, ?_, rfl⟩
  unfold macronize
  rw [if_neg (by norm_num), if_neg (by norm_num)]
  simp only [edgeG, List.foldl_cons, List.foldl_nil, edgeStep, hs, Bool.false_eq_true, if_false]
  congr 1
  decide +kernel

/-- **C20 fails for `disp = 0.05` with padding**: the padding micronode at distance 0.05 coincides
with the micronode of the edge in the positive x-direction, so `macro_dict` lists it twice. -/
theorem C20_false_pad : ∃ m, macronize pathG true (1 / 20) = .ok m ∧
    ¬ (micros m (1, 0, 0)).Nodup := by
  have hd : decimals (1 / 20) = 3 := by
    unfold decimals
    have : ⌊(1 : ℚ) / (1 / 20)⌋₊ = 20 := by
      rw [Nat.floor_eq_iff (by norm_num)]; norm_num
    rw [this, Nat.log_of_one_lt_of_le (by norm_num) (by norm_num)]
    simp
  have hs : ∀ a : ℚ, (a = 0 ∨ a = 1) → shortened (1 / 20) (a, 0, 0) (a + 1, 0, 0) false = (1/20, 0, 0) := by
    intro a ha
    rw [shortened_eq]
    have : delta (1 / 20) = 1/20 := by unfold delta; rw [hd]; decide +kernel
    rw [this]
    rcases ha with rfl | rfl <;> decide +kernel
  have h1 := hs 0 (Or.inl rfl)
  have h2 := hs 1 (Or.inr rfl)
  rw [show (0 : ℚ) + 1 = 1 by norm_num] at h1
  rw [show (1 : ℚ) + 1 = 2 by norm_num] at h2
  refine ⟨(pathG.nodes.foldlM padStep ⟨[(1/20, 0, 0), (19/20, 0, 0), (21/20, 0, 0), (39/20, 0, 0)],
    [((1/20, 0, 0), (19/20, 0, 0)), ((21/20, 0, 0), (39/20, 0, 0))],
    [((0, 0, 0), [(1/20, 0, 0)]), ((1, 0, 0), [(19/20, 0, 0), (21/20, 0, 0)]), ((2, 0, 0), [(39/20, 0, 0)])],
    none⟩).get (by decide +kernel), ?_, by decide +kernel⟩
  unfold macronize
  rw [if_neg (by norm_num), if_neg (by norm_num)]
  simp only [pathG, List.foldl_cons, List.foldl_nil, edgeStep, h1, h2, if_true]
  congr 1
  decide +kernel

/-! ### Non-vacuity -/

example : Lattice pathG ∧ (∀ v ∈ pathG.nodes, 1 ≤ degree pathG v ∧ degree pathG v ≤ 4) :=
  ⟨lattice_pathG, by decide +kernel⟩

/-- A 4-cycle closed by a periodic edge: no two edges leave a node in the same direction. -/
example : Lattice
    { nodes := [(0, 0, 0), (1, 0, 0), (2, 0, 0), (3, 0, 0)]
      edges := [((0, 0, 0), (1, 0, 0), false), ((1, 0, 0), (2, 0, 0), false),
        ((2, 0, 0), (3, 0, 0), false), ((0, 0, 0), (3, 0, 0), true)] } := by
  refine ⟨by decide +kernel, ?_, by decide +kernel, by decide +kernel, by decide +kernel⟩
  intro p hp
  simp only [List.mem_cons, List.not_mem_nil, or_false] at hp
  rcases hp with rfl | rfl | rfl | rfl
  · exact ⟨0, 0, 0, by norm_num⟩
  · exact ⟨1, 0, 0, by norm_num⟩
  · exact ⟨2, 0, 0, by norm_num⟩
  · exact ⟨3, 0, 0, by norm_num⟩

end Flamingpy.Macronize
