import Verif.Props.UfErasure

/-!
# C97: Union-Find on pure erasures, open boundaries
-/

namespace Flamingpy.UnionFind

open Flamingpy SurfaceCode

theorem oddComp_congr {I : Input} {D D' : List (Sym2 SNode)} (h : ∀ k, k ∈ D ↔ k ∈ D') (v : SNode) : oddComp I D v = oddComp I D' v := by
  have hc : ∀ u, Conn D v u ↔ Conn D' v u := fun u =>
    ⟨fun hc => hc.mono fun k hk => (h k).1 hk, fun hc => hc.mono fun k hk => (h k).2 hk⟩
  unfold oddComp
  simp only [hc]

/-- An edge between two odd clusters of the erasures is grown in the first round, whether they touch the boundary or not. -/
theorem first_round (cl : CompLib SNode) (io : IterOrder SNode) {I : Input} (hI : Wf I) (hok : CompOk I) {fuel : ℕ}
    (hf : 2 * (realE I.E).length + 1 ≤ fuel) {s s' : St} {odd : List SNode} (hs : initState cl io I = some (s, odd))
    (hu : unionFind io I fuel 0 s odd = some s') {u v : SNode} (he : s(u, v) ∈ realE I.E)
    (hou : Odd (oddComp I (erasureEdges I) u).ncard) (hov : Odd (oddComp I (erasureEdges I) v).ncard) : s(u, v) ∈ grownL s'.status := by
  obtain ⟨s0, odd0, rep, dep, e1, hst, H, hr, -, hall⟩ := initState_exact cl io hI
  rw [hs] at e1
  cases e1
  have hg : ∀ k, k ∈ grownL s.status ↔ k ∈ erasureEdges I := fun k => by rw [hst, supportInit_grown hI]
  have hin : ∀ x ∈ erasureNodes I, Odd (oddComp I (erasureEdges I) x).ncard → rep x ∈ odd := by
    intro x hx ho
    refine hall x hx ?_
    rw [H.heap.parity x hx, decide_eq_true_eq, ← Nat.odd_iff]
    have hset : {z | z ∈ erasureNodes I ∧ (rep z = rep x ∧ rootParity I z = some true)} = oddComp I (erasureEdges I) x := by
      rw [← oddComp_congr hg]
      ext z
      constructor
      · rintro ⟨h1, h2, h3⟩
        obtain ⟨k, rfl, hk⟩ := rootParity_odd.1 h3
        exact ⟨k, rfl, (erasureNodes_sub hI h1).1, hk, (H.conn x hx _ h1).1 h2.symm⟩
      · rintro ⟨k, rfl, h1, h2, h3⟩
        have h4 := conn_mem hI (fun k hk => List.mem_of_mem_filter ((hg k).1 hk)) hx h3
        exact ⟨h4, ((H.conn x hx _ h4).2 h3).symm, rootParity_odd.2 ⟨k, rfl, h2⟩⟩
    rw [← ncard_countP (erasureNodes_nodup hI), hset]
    exact ho
  have h1 := hin u (mem_erasureNodes_left hI he) hou
  have h2 := hin v (mem_erasureNodes_right hI he) hov
  rw [mem_grownL]
  cases odd with
  | nil => cases h1
  | cons c odd =>
    obtain ⟨s1, odd1, rep1, dep1, e, H1, ⟨g1, g2⟩, ho1, m, _⟩ := round_exact hI io 0 H hr
    obtain ⟨fuel, rfl⟩ : ∃ n, fuel = n + 1 := ⟨fuel - 1, by omega⟩
    rw [unionFind, e] at hu
    obtain ⟨s2, rep2, dep2, e2, H2, m2⟩ := unionFind_aux hI hok io fuel 1 s1 odd1 rep1 dep1 H1 ho1 (by omega)
    have : s2 = s' := by
      have hu' : unionFind io I fuel 1 s1 odd1 = some s' := hu
      rw [e2] at hu'
      exact Option.some.inj hu'
    subst this
    have h3 := g1 u v he
    rw [if_pos h1, if_pos h2] at h3
    have h4 := m2 s(u, v)
    have h5 := lvl_le s2.status s(u, v)
    omega

end Flamingpy.UnionFind

namespace Flamingpy.Trial

open Flamingpy Flamingpy.SurfaceCode Flamingpy.UnionFind Flamingpy.Weights Flamingpy.Sim

/-! ### Proofs -/

/-- The line along axis `i` through a cell, without its second qubit. -/
def cutLine (ec : Ec) (c0 : V) (i : Fin 3) (x : V) : Bool := decide (line ec c0 i x ≠ 0 ∧ x i ≠ lowF ec + 2)

theorem sheet_zero {code : Code} (h : IsCode code) {b : V → Bool} {i : Fin 3} (hb : ∀ x ∈ code.syndrome, x i = lowF code.ec → b x = false) :
    sheetParity code b i (lowF code.ec) = false := by
  rw [← b2z_eq_zero, h.ok.1.sheet, plane]
  refine Finset.sum_eq_zero fun x hx => ?_
  obtain ⟨h1, h2⟩ := Finset.mem_filter.1 hx
  rw [hb x ((h.ok.1.syndrome x).2 h1) h2]
  rfl

theorem open_axis {code : Code} (ho : code.boundaries = .open) : planesToCheck code.ec code.boundaries = [openAxis code.ec] := by
  rw [ho]; cases code.ec <;> rfl

section
variable {code : Code} (h : IsCode code)
include h

/-- The syndrome of the line without one qubit. -/
theorem cutLine_parity (ho : code.boundaries = .open) (hd : 3 ≤ code.dims (openAxis code.ec)) {c0 : V}
    (hc0 : c0 ∈ cells code.ec code.dims (boundsOf code.ec code.boundaries)) {e : V}
    (hee : e = Function.update c0 (openAxis code.ec) (lowF code.ec + 2)) :
    e ∈ code.syndrome ∧ e ∉ code.boundPoints ∧
    (∀ s ∈ code.stabs, parity (cutLine code.ec c0 (openAxis code.ec)) s = decide (e ∈ s)) ∧
    sheetParity code (cutLine code.ec c0 (openAxis code.ec)) (openAxis code.ec) (lowF code.ec) = true := by
  obtain ⟨hok, hd2⟩ := h.ok
  set i := openAxis code.ec with hi
  have hbi : boundsOf code.ec code.boundaries i = code.ec.toBd := (bds_open_iff _ _ _).2 ⟨ho, rfl⟩
  obtain ⟨hc1, hc2⟩ := mem_cells.1 hc0
  obtain ⟨hf1, hf2⟩ := (faces_iff (ec := code.ec) (hd2 i) (Or.inl hbi) (lowF code.ec + 2)).2 ⟨1, by omega, by push_cast; ring⟩
  have hei : e i = lowF code.ec + 2 := by rw [hee, Function.update_self]
  have hej : ∀ j, j ≠ i → e j = c0 j := fun j hj => by rw [hee, Function.update_of_ne hj]
  have heq : e ∈ qubits code.ec code.dims (boundsOf code.ec code.boundaries) := by
    refine mem_qubits.2 ⟨fun j => ?_, i, ?_, fun j hj => ?_⟩
    · by_cases hj : j = i
      · rw [hj, hei]; exact hf1
      · rw [hej j hj]; exact hc1 j
    · rw [hei]; exact hf2
    · rw [hej j hj]; exact hc2 j
  have hes := (hok.syndrome e).2 heq
  have hline : ∀ x, (cutLine code.ec c0 i x) = xor (decide (line code.ec c0 i x ≠ 0)) (decide (x = e)) := by
    intro x
    unfold cutLine
    by_cases hx : x = e
    · subst hx
      have : line code.ec c0 i x ≠ 0 := by
        unfold line
        rw [if_pos ⟨by rw [hei]; exact hf2, hej⟩]
        decide
      simp [this, hei]
    · have : line code.ec c0 i x ≠ 0 → x i ≠ lowF code.ec + 2 := by
        intro hl hxi
        apply hx
        unfold line at hl
        split_ifs at hl with hc
        · funext j
          by_cases hj : j = i
          · rw [hj, hxi, hei]
          · rw [hc.2 j hj, hej j hj]
        · exact absurd rfl hl
      by_cases hl : line code.ec c0 i x ≠ 0
      · simp [hl, hx, this hl]
      · simp only [ne_eq, not_not] at hl
        simp [hl, hx]
  have hl1 : (fun x => b2z (decide (line code.ec c0 i x ≠ 0))) = line code.ec c0 i := by
    funext x; unfold line b2z; split_ifs <;> simp_all
  have htriv : ∀ s ∈ code.stabs, parity (fun x => decide (line code.ec c0 i x ≠ 0)) s = false := by
    rw [hok.trivial_iff, hl1]
    exact line_par hd2 hc0 i (Or.inl hbi)
  refine ⟨hes, fun hb => ?_, fun s hs => ?_, ?_⟩
  · obtain ⟨-, -, hb⟩ := (hok.mem_bound e).1 hb
    rw [← hi, hei] at hb
    unfold highF at hb
    unfold lowF at hb
    revert hb
    cases code.ec <;> simp only <;> omega
  · have : cutLine code.ec c0 i = fun x => xor (decide (line code.ec c0 i x ≠ 0)) (decide (x = e)) := funext hline
    rw [this, parity_xor, htriv s hs, Bool.false_xor, parity_mem]
    obtain ⟨k, hk, rfl⟩ := List.getElem_of_mem hs
    have hn := h.stab_nodup hk
    rw [List.getD_eq_getElem _ _ hk] at hn
    have : (code.stabs[k].filter fun x => decide (x = e)).length = code.stabs[k].count e := by
      rw [← List.countP_eq_length_filter, List.count]
      exact List.countP_congr fun x _ => by simp
    rw [this]
    by_cases hek : e ∈ code.stabs[k]
    · rw [List.count_eq_one_of_mem hn hek]; simp [hek]
    · rw [List.count_eq_zero_of_not_mem hek]; simp [hek]
  · have : cutLine code.ec c0 i = fun x => xor (decide (line code.ec c0 i x ≠ 0)) (decide (x = e)) := funext hline
    rw [this, sheetParity_xor, sheet_zero h (b := fun x => decide (x = e)) (i := i) (fun x _ hx => by
      rw [decide_eq_false_iff_not]
      rintro rfl
      omega), Bool.xor_false]
    have : sheetParity code (fun x => decide (line code.ec c0 i x ≠ 0)) i (lowF code.ec) = true := by
      rw [← b2z_ne_zero, hok.sheet, hl1, line_plane hc0 i]
      · decide
      · exact ((faces_iff (ec := code.ec) (hd2 i) (Or.inl hbi) (lowF code.ec)).2 ⟨0, by omega, by simp⟩).1
      · exact ((faces_iff (ec := code.ec) (hd2 i) (Or.inl hbi) (lowF code.ec)).2 ⟨0, by omega, by simp⟩).2
    exact this

/-- The line with one qubit missing has one qubit fewer than the code is long. -/
theorem cutLine_count (ho : code.boundaries = .open) (hd : 3 ≤ code.dims (openAxis code.ec)) {c0 : V}
    (hc0 : c0 ∈ cells code.ec code.dims (boundsOf code.ec code.boundaries)) :
    code.syndrome.countP (cutLine code.ec c0 (openAxis code.ec)) = code.dims (openAxis code.ec) - 1 := by
  obtain ⟨hok, hd2⟩ := h.ok
  set i := openAxis code.ec with hi
  have hbi : boundsOf code.ec code.boundaries i = code.ec.toBd := (bds_open_iff _ _ _).2 ⟨ho, rfl⟩
  obtain ⟨hc1, hc2⟩ := mem_cells.1 hc0
  have hfi := fun a => faces_iff (ec := code.ec) (hd2 i) (Or.inl hbi) a
  rw [List.countP_eq_length_filter, ← List.toFinset_card_of_nodup (hok.syndromeNd.filter _)]
  have : (code.syndrome.filter (cutLine code.ec c0 i)).toFinset =
      ((Finset.range (code.dims i)).erase 1).image fun k : ℕ => Function.update c0 i (lowF code.ec + 2 * (k : ℤ)) := by
    ext x
    simp only [List.mem_toFinset, List.mem_filter, Finset.mem_image, Finset.mem_erase, Finset.mem_range]
    constructor
    · rintro ⟨hx, hb⟩
      unfold cutLine line at hb
      split_ifs at hb with hc
      · have hb := (of_decide_eq_true hb).2
        obtain ⟨hq, -⟩ := mem_qubits.1 ((hok.syndrome x).1 hx)
        obtain ⟨k, hk, hxk⟩ := (hfi (x i)).1 ⟨hq i, hc.1⟩
        refine ⟨k, ⟨fun h1 => hb ?_, hk⟩, ?_⟩
        · rw [hxk, h1]; push_cast; ring
        · funext j
          by_cases hj : j = i
          · rw [hj, Function.update_self, hxk]
          · rw [Function.update_of_ne hj, hc.2 j hj]
      · simp at hb
    · rintro ⟨k, ⟨hk1, hk⟩, rfl⟩
      obtain ⟨hf1, hf2⟩ := (hfi (lowF code.ec + 2 * (k : ℤ))).2 ⟨k, hk, rfl⟩
      refine ⟨(hok.syndrome _).2 (mem_qubits.2 ⟨fun j => ?_, i, ?_, fun j hj => ?_⟩), ?_⟩
      · by_cases hj : j = i
        · subst hj; rw [Function.update_self]; exact hf1
        · rw [Function.update_of_ne hj]; exact hc1 j
      · rw [Function.update_self]; exact hf2
      · rw [Function.update_of_ne hj]; exact hc2 j
      · unfold cutLine line
        rw [if_pos ⟨by rw [Function.update_self]; exact hf2, fun j hj => Function.update_of_ne hj _ _⟩, Function.update_self]
        rw [decide_eq_true_eq]
        exact ⟨by decide, by omega⟩
  rw [this, Finset.card_image_of_injective, Finset.card_erase_of_mem (by simp; omega), Finset.card_range]
  intro k l hkl
  have := congrFun hkl i
  simp only [Function.update_self] at this
  omega

/-- The two cells of a qubit that is not on the boundary lie on its two sides along its axis, and erased edges do not lead from one
to the other if no qubit of its plane is erased. -/
theorem not_across (bk : Backend) (sp : SetPop) (w : V → ℚ) (bits : V → Bool)
    (ho : code.boundaries = .open) {t : ℤ} (ht : t % 2 ≠ cellPar code.ec)
    (hw : ∀ x ∈ code.syndrome, x (openAxis code.ec) = t → w x ≠ -1) {u v : SNode}
    (hc : Conn (erasureEdges (ufInput (stabGraph bk sp code) w bits)) u v) :
    pos code (openAxis code.ec) u < t ↔ pos code (openAxis code.ec) v < t := by
  set i := openAxis code.ec with hi
  have hdp : ∀ i, boundsOf code.ec code.boundaries i = .periodic → 3 ≤ code.dims i := by
    intro j hj
    exfalso
    rw [ho, boundsOf_table] at hj
    revert hj
    cases code.ec <;> revert j <;> decide
  obtain ⟨f, f1, f2, f3, f4, f5, f6, f7⟩ := edge_map h bk sp w bits hdp
  have A := axis_code h bk sp w bits i
  have hP : period (boundsOf code.ec code.boundaries i) (code.dims i) = 0 := by
    unfold period
    rw [if_neg]
    intro hp
    rw [ho, boundsOf_table] at hp
    revert hp
    rw [hi]
    cases code.ec <;> decide
  rw [hP] at A
  induction hc with
  | refl => rfl
  | @tail y z _ hyz ih =>
    refine ih.trans ?_
    rw [erasureEdges, List.mem_filter] at hyz
    obtain ⟨x, hx, he⟩ := (f4 _).1 hyz.1
    have h5 := f5 x hx
    rw [← he, hyz.2] at h5
    have hxe : w x = -1 := by simpa using h5.symm
    have hst := A.step y z (by simpa using hyz.1)
    have hy : ysheet bk sp code i s(y, z) = sheetOf code i x := by
      unfold ysheet
      rw [he, get_code h bk sp (f1 x hx)]
      rfl
    rw [hy] at hst
    unfold sheetOf at hst
    split_ifs at hst with hpar
    · have : pos code i z = pos code i y := by
        have := zero_dvd_iff.1 hst
        omega
      rw [this]
    · have hcp : cellPar code.ec = 0 ∨ cellPar code.ec = 1 := by cases code.ec <;> simp [cellPar]
      have hne : x i ≠ t := fun hxt => hw x hx hxt hxe
      rcases hst with ⟨h1, h2⟩ | ⟨h1, h2⟩
      · have h1 := zero_dvd_iff.1 h1
        have h2 := zero_dvd_iff.1 h2
        omega
      · have h1 := zero_dvd_iff.1 h1
        have h2 := zero_dvd_iff.1 h2
        omega

end

open Classical in
/-- C97.  Open boundaries: flip a line of qubits across the code except one in its interior, with exactly the flipped qubits erased.  No pattern
of erased qubits is a logical operator, but Union-Find does not correct the error. -/
theorem C97_boundary {code : Code} (h : IsCode code) (ho : code.boundaries = .open) (hd : 3 ≤ code.dims (openAxis code.ec)) :
    ∃ bits : V → Bool, code.syndrome.countP bits = code.dims (openAxis code.ec) - 1 ∧
      (∀ L, OnErased code (fun x => if bits x then -1 else 2) L → trivialSyndrome code L → Noiseless code L) ∧
      ∀ (bk : Backend) (sp : SetPop) (cl : CompLib SNode) (sl : SpanLib SNode (Option V)) (io : IterOrder SNode) (fuel : ℕ),
        2 * (stabGraph bk sp code).edges.length + 1 ≤ fuel → ∀ sanity : Bool,
        ∃ bits', correct code (ufDecoder cl sl io fuel (stabGraph bk sp code) fun x => if bits x then -1 else 2) sanity bits =
          some (bits', false) := by
  obtain ⟨hok, hd2⟩ := h.ok
  set i := openAxis code.ec with hi
  have hbi : boundsOf code.ec code.boundaries i = code.ec.toBd := (bds_open_iff _ _ _).2 ⟨ho, rfl⟩
  have hdp : ∀ i, boundsOf code.ec code.boundaries i = .periodic → 3 ≤ code.dims i := by
    intro j hj
    exfalso
    rw [ho, boundsOf_table] at hj
    revert hj
    cases code.ec <;> revert j <;> decide
  have hpl := open_axis ho
  obtain ⟨c0, hc0⟩ : ∃ c0, c0 ∈ cells code.ec code.dims (boundsOf code.ec code.boundaries) := by
    refine ⟨fun _ => match code.ec with
      | .primal => 1
      | .dual => 2, mem_cells.2 ⟨?_, ?_⟩⟩
    · intro j
      have := hd2 j
      cases code.ec <;> simp only [inAxis] <;> split <;> omega
    · intro j; cases code.ec <;> rfl
  obtain ⟨e, hee⟩ : ∃ e, e = Function.update c0 i (lowF code.ec + 2) := ⟨_, rfl⟩
  obtain ⟨he1, he2, he3, he4⟩ := cutLine_parity h ho hd hc0 hee
  rw [← hi] at he3 he4
  have hei : e i = lowF code.ec + 2 := by rw [hee, Function.update_self]
  set bits := cutLine code.ec c0 i with hbits
  have hplane : ∀ x, bits x = true → x i ≠ lowF code.ec + 2 := fun x hx => by
    rw [hbits] at hx
    unfold cutLine at hx
    simp only [decide_eq_true_eq] at hx
    exact hx.2
  have hw : ∀ x ∈ code.syndrome, x i = lowF code.ec + 2 → (if bits x then (-1 : ℚ) else 2) ≠ -1 := by
    intro x _ hxi
    rw [if_neg fun hb => hplane x hb hxi]
    norm_num
  refine ⟨bits, ?_, fun L hL ht => ?_, fun bk sp cl sl io fuel hf sanity => ?_⟩
  · exact cutLine_count h ho hd hc0
  · refine (C57_verdict h L false).1 ⟨ht, ?_⟩
    rw [check_eq hd2, Option.some.injEq, List.all_eq_true]
    intro j hj
    by_contra hodd
    have hji : j = i := by rw [hpl] at hj; simpa using hj
    obtain ⟨x, hx, hxi, hb⟩ := odd_all h ht hj (by simpa using hodd) 1 (by rw [hji]; omega)
    rw [hji] at hxi
    exact hw x hx (by rw [hxi]; push_cast; ring) (hL x hx hb)
  · set w : V → ℚ := fun x => if bits x then -1 else 2 with hwdef
    have hI := wf_code h bk sp w bits
    have hle := realE_le (bk := bk) (sp := sp) (code := code) (w := w) (bits := bits)
    obtain ⟨R, s, odd, s', e1, e2, her, h1, h2, h3, h4, h5⟩ := uf_bound h bk sp w bits cl sl io fuel (by omega)
    obtain ⟨f, f1, f2, f3, f4, f5, f6, f7⟩ := edge_map h bk sp w bits hdp
    -- the two cells of the missing qubit
    have hcard := hok.stabsOf_card hd2 he1
    rw [if_neg he2] at hcard
    obtain ⟨j, k, hjk, hjks⟩ := Finset.card_eq_two.1 hcard
    have hmem : ∀ l, e ∈ code.stabs.getD l [] ↔ l = j ∨ l = k := by
      intro l
      rw [← mem_stabsOf', hjks]
      simp
    have hlen : ∀ l, e ∈ code.stabs.getD l [] → l < code.stabs.length := by
      intro l hl
      by_contra hc
      rw [List.getD_eq_default _ _ (by omega)] at hl
      cases hl
    have hodd : ∀ l, (ufInput (stabGraph bk sp code) w bits).odd l = true ↔ l = j ∨ l = k := by
      intro l
      rw [odd_code h, ← hmem l]
      by_cases hl : l < code.stabs.length
      · rw [List.getD_eq_getElem _ _ hl, he3 _ (List.getElem_mem _), decide_eq_true_eq]
      · rw [List.getD_eq_default _ _ (by omega)]
        simp [parity]
    have hfe : f e = s(.stab j, .stab k) := by
      have a1 : SNode.stab j ∈ f e := (f6 e he1 j).2 ((hmem j).2 (Or.inl rfl))
      have a2 : SNode.stab k ∈ f e := (f6 e he1 k).2 ((hmem k).2 (Or.inr rfl))
      exact (Sym2.mem_and_mem_iff (by simpa using hjk)).1 ⟨a1, a2⟩
    have hreal : s(SNode.stab j, SNode.stab k) ∈ realE (ufInput (stabGraph bk sp code) w bits).E := (f4 _).2 ⟨e, he1, hfe.symm⟩
    have hpar : (lowF code.ec + 2) % 2 ≠ cellPar code.ec := by cases code.ec <;> decide
    have hnot : ∀ u v, Conn (erasureEdges (ufInput (stabGraph bk sp code) w bits)) u v →
        (pos code i u < lowF code.ec + 2 ↔ pos code i v < lowF code.ec + 2) := fun u v hc =>
      not_across h bk sp w bits ho hpar hw hc
    have hsides : ¬ (pos code i (.stab j) < lowF code.ec + 2 ↔ pos code i (.stab k) < lowF code.ec + 2) := by
      have hst := (axis_code h bk sp w bits i).step _ _ (by simpa using hreal)
      have hP : period (boundsOf code.ec code.boundaries i) (code.dims i) = 0 := by
        unfold period
        rw [if_neg]
        rw [hbi]
        cases code.ec <;> decide
      have hy : ysheet bk sp code i s(.stab j, .stab k) = some (lowF code.ec + 2) := by
        unfold ysheet
        rw [← hfe, get_code h bk sp (f1 e he1)]
        show sheetOf code i e = _
        unfold sheetOf
        rw [if_neg (by rw [hei]; exact hpar), hei]
      rw [hP, hy] at hst
      rcases hst with ⟨k1, k2⟩ | ⟨k1, k2⟩
      · have k1 := zero_dvd_iff.1 k1
        have k2 := zero_dvd_iff.1 k2
        omega
      · have k1 := zero_dvd_iff.1 k1
        have k2 := zero_dvd_iff.1 k2
        omega
    have hjn : ∀ l, l = j ∨ l = k → SNode.stab l ∈ (ufInput (stabGraph bk sp code) w bits).nodes := fun l hl =>
      (stab_mem_nodes h bk sp w bits).2 (hlen l ((hmem l).2 hl))
    have hone : ∀ l, l = j ∨ l = k → Odd (oddComp (ufInput (stabGraph bk sp code) w bits)
        (erasureEdges (ufInput (stabGraph bk sp code) w bits)) (.stab l)).ncard := by
      intro l hl
      have : oddComp (ufInput (stabGraph bk sp code) w bits) (erasureEdges (ufInput (stabGraph bk sp code) w bits)) (.stab l) =
          {SNode.stab l} := by
        ext u
        constructor
        · rintro ⟨l', rfl, -, ho', hc⟩
          have := hnot _ _ hc
          rcases hl with rfl | rfl <;> rcases (hodd l').1 ho' with rfl | rfl
          · rfl
          · exact absurd this hsides
          · exact absurd this.symm hsides
          · rfl
        · rintro rfl
          exact ⟨l, rfl, hjn l hl, (hodd l).2 hl, Conn.refl _ _⟩
      rw [this, Set.ncard_singleton]
      decide
    have hgrown := first_round cl io hI (compOk_code h bk sp w bits) (by omega) e1 e2 hreal (hone j (Or.inl rfl)) (hone k (Or.inr rfl))
    have heven : ∀ p, Even (oddComp (ufInput (stabGraph bk sp code) w bits) (grownL s'.status) (.pt p)).ncard := by
      intro p
      by_cases hc : Conn (grownL s'.status) (.pt p) (.stab j)
      · have : oddComp (ufInput (stabGraph bk sp code) w bits) (grownL s'.status) (.pt p) = {SNode.stab j, SNode.stab k} := by
          ext u
          constructor
          · rintro ⟨l, rfl, -, hl, -⟩
            simpa using (hodd l).1 hl
          · rintro (rfl | rfl)
            · exact ⟨j, rfl, hjn j (Or.inl rfl), (hodd j).2 (Or.inl rfl), hc⟩
            · exact ⟨k, rfl, hjn k (Or.inr rfl), (hodd k).2 (Or.inr rfl), hc.trans (Conn.edge hgrown)⟩
        rw [this, Set.ncard_pair (by simpa using hjk)]
        decide
      · have : oddComp (ufInput (stabGraph bk sp code) w bits) (grownL s'.status) (.pt p) = ∅ := by
          rw [Set.eq_empty_iff_forall_notMem]
          rintro u ⟨l, rfl, -, hl, hcl⟩
          rcases (hodd l).1 hl with rfl | rfl
          · exact hc hcl
          · exact hc (hcl.trans (Conn.edge (by rw [Sym2.eq_swap]; exact hgrown)))
        rw [this, Set.ncard_empty]
        exact Even.zero
    have hsyn : ∀ x ∈ R, x ∈ code.syndrome := fun x hx => by
      obtain ⟨e, _, he⟩ := h3 x hx
      exact (h.ok.1.edge_effect h.ok.2 sp he).1
    have hrec := recovery_nodup (PyDict.keys code.graph.nodes) R (fun q hq => h.syndrome_node (hsyn q hq)) h2 bits
    refine ⟨fun x => xor (bits x) (decide (x ∈ R)), ?_⟩
    unfold correct
    rw [h1, Option.bind_eq_bind, Option.bind_some, hrec, Option.bind_eq_bind, Option.bind_some, check_eq hd2, hpl]
    have hlow : sheetParity code (fun x => xor (bits x) (decide (x ∈ R))) i (lowF code.ec) = true := by
      rw [sheetParity_xor, he4, sheet_zero h (b := fun x => decide (x ∈ R)) fun x hx hxi => ?_]
      · rfl
      · rw [decide_eq_false_iff_not]
        exact h5 x (heven x) ((hok.mem_bound x).2 ⟨hx, ho, Or.inl hxi⟩)
    have hlow' : sheetParity code (fun x => xor (bits x) (decide (x ∈ R))) (openAxis code.ec) (lowF code.ec) = true := hlow
    simp only [List.all_cons, List.all_nil, hlow']
    rfl

/-! ### The hypotheses can be met -/

-- two flipped erased qubits of an open code of size three
example : ∃ code, IsCode code ∧ ∃ bits : V → Bool, code.syndrome.countP bits = 2 ∧
    ∀ X : Libs, ∃ bits', correct code (ufDecoder X.comps X.span X.iter (2 * (stabGraph X.bk X.sp code).edges.length + 1)
      (stabGraph X.bk X.sp code) fun x => if bits x then -1 else 2) false bits = some (bits', false) := by
  obtain ⟨code, hc⟩ := C54_constructor_total idOrder .dual .open (dims := fun _ => 3) (by simp) none
  obtain ⟨hc, hd, hec, hb⟩ := hc
  have h : IsCode code := ⟨idOrder, .dual, .open, _, none, by simp, hc⟩
  obtain ⟨bits, h1, -, h2⟩ := C97_boundary h hb (by rw [hd])
  refine ⟨code, h, bits, by simp [h1, hd], fun X => h2 _ _ _ _ _ _ le_rfl _⟩

end Flamingpy.Trial
