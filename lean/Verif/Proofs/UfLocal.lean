import Verif.Proofs.UfSparse

/-!
# Union-Find corrects errors of islands only

For C85: the clusters stay small if the flipped and erased qubits form islands.
-/

namespace Flamingpy.UnionFind

open Flamingpy SurfaceCode Flamingpy.Sparse

open Classical in
/-- The edge of a qubit in the stabilizer graph. -/
noncomputable def qEdge (sp : SetPop) (code : Code) (x : V) : Sym2 SNode :=
  if h : ∃ e, (e, some x) ∈ codeEdges sp code then h.choose else s(.low, .low)

/-- The edges of the qubits. -/
noncomputable def codeEs (sp : SetPop) (code : Code) : Finset (Sym2 SNode) := code.syndrome.toFinset.image (qEdge sp code)

section

variable {code : Code} (h : IsCode code) (bk : Backend) (sp : SetPop) (w : V → ℚ) (bits : V → Bool)

local notation "II" => ufInput (stabGraph bk sp code) w bits
local notation "bds" => boundsOf code.ec code.boundaries

include h

theorem qEdge_map (hd : ∀ i, bds i = .periodic → 3 ≤ code.dims i) :
    (∀ x ∈ code.syndrome, (qEdge sp code x, some x) ∈ codeEdges sp code) ∧
    (∀ e x, (e, some x) ∈ codeEdges sp code → x ∈ code.syndrome ∧ e = qEdge sp code x) ∧
    (∀ x ∈ code.syndrome, ∀ y ∈ code.syndrome, qEdge sp code x = qEdge sp code y → x = y) ∧
    (∀ e, e ∈ realE (II).E ↔ ∃ x ∈ code.syndrome, e = qEdge sp code x) ∧
    (∀ x ∈ code.syndrome, erased (II).E (qEdge sp code x) = decide (w x = -1)) ∧
    (∀ x ∈ code.syndrome, ∀ k, SNode.stab k ∈ qEdge sp code x ↔ x ∈ code.stabs.getD k []) := by
  obtain ⟨f, f1, f2, f3, f4, f5, f6, _⟩ := edge_map h bk sp w bits hd
  have hf : ∀ x ∈ code.syndrome, f x = qEdge sp code x := by
    intro x hx
    have hex : ∃ e, (e, some x) ∈ codeEdges sp code := ⟨_, f1 x hx⟩
    have : qEdge sp code x = hex.choose := by unfold qEdge; rw [dif_pos hex]
    rw [this]
    exact (f2 _ x hex.choose_spec).2.symm
  refine ⟨fun x hx => by rw [← hf x hx]; exact f1 x hx, fun e x he => ?_, fun x hx y hy => ?_, fun e => ?_, fun x hx => ?_, fun x hx => ?_⟩
  · obtain ⟨h1, h2⟩ := f2 e x he
    exact ⟨h1, by rw [← hf x h1]; exact h2⟩
  · rw [← hf x hx, ← hf y hy]
    exact f3 x hx y hy
  · rw [f4]
    constructor
    · rintro ⟨x, hx, he⟩
      exact ⟨x, hx, by rw [← hf x hx]; exact he⟩
    · rintro ⟨x, hx, he⟩
      exact ⟨x, hx, by rw [hf x hx]; exact he⟩
  · rw [← hf x hx]
    exact f5 x hx
  · rw [← hf x hx]
    exact f6 x hx

theorem esF_eq (hd : ∀ i, bds i = .periodic → 3 ≤ code.dims i) : esF (II) = codeEs sp code := by
  ext e
  rw [List.mem_toFinset, (qEdge_map h bk sp w bits hd).2.2.2.1, codeEs, Finset.mem_image]
  simp only [List.mem_toFinset]
  exact ⟨fun ⟨x, hx, he⟩ => ⟨x, hx, he.symm⟩, fun ⟨x, hx, he⟩ => ⟨x, hx, he.symm⟩⟩

/-- Positions of near nodes. -/
theorem near_pos (hd : ∀ i, bds i = .periodic → 3 ≤ code.dims i) (i : Fin 3) {r : ℕ} {u v : SNode} (hn : Near (codeEs sp code) r u v) :
    ∃ δ : ℤ, |δ| ≤ 2 * r ∧ period (bds i) (code.dims i) ∣ pos code i v - pos code i u - δ := by
  have A := axis_code h .networkx sp (fun _ => 0) (fun _ => false) i
  rw [esF_eq h .networkx sp (fun _ => 0) (fun _ => false) hd] at A
  induction r generalizing v with
  | zero =>
    have : u = v := hn
    subst this
    exact ⟨0, by simp, by simp⟩
  | succ r ih =>
    rcases hn with hn | ⟨z, hn, he⟩
    · obtain ⟨δ, h1, h2⟩ := ih hn
      exact ⟨δ, by push_cast; omega, h2⟩
    · obtain ⟨δ, h1, h2⟩ := ih hn
      have hs := A.step z v he
      revert hs
      generalize ysheet .networkx sp code i s(z, v) = y
      intro hs
      cases y with
      | none =>
        refine ⟨δ, by push_cast; omega, ?_⟩
        have := Int.dvd_add h2 hs
        convert this using 1
        ring
      | some y =>
        rcases hs with ⟨hs, _⟩ | ⟨hs, _⟩
        · refine ⟨δ + 2, ?_, ?_⟩
          · have := abs_add_le δ 2
            rw [show |(2 : ℤ)| = 2 from rfl] at this
            push_cast
            omega
          · have := Int.dvd_add h2 hs
            convert this using 1
            ring
        · refine ⟨δ - 2, ?_, ?_⟩
          · have := abs_sub δ 2
            rw [show |(2 : ℤ)| = 2 from rfl] at this
            push_cast
            omega
          · have := Int.dvd_add h2 hs
            convert this using 1
            ring

/-- A qubit lies next to the nodes of its edge. -/
theorem qubit_pos (hd : ∀ i, bds i = .periodic → 3 ≤ code.dims i) (i : Fin 3) {x : V} (hx : x ∈ code.syndrome) {u : SNode} (hu : u ∈ qEdge sp code x) :
    ∃ δ : ℤ, |δ| ≤ 3 ∧ period (bds i) (code.dims i) ∣ x i - pos code i u - δ := by
  obtain ⟨f1, f2, f3, f4, f5, f6⟩ := qEdge_map h .networkx sp (fun _ => 0) (fun _ => false) hd
  have hst : ∃ k, k < code.stabs.length ∧ SNode.stab k ∈ qEdge sp code x := by
    have hc := f1 x hx
    rcases mem_codeEdges.1 hc with ⟨q, _, h1⟩ | ⟨q, _, h1⟩ | ⟨a, b, hij, hj, hc, h1⟩ | ⟨k, q, hk, hq, hqk, h1⟩
    · simp at h1
    · simp at h1
    · rw [(Prod.mk.inj h1).1]
      exact ⟨b, hj, by simp⟩
    · rw [(Prod.mk.inj h1).1]
      exact ⟨k, hk, by simp⟩
  obtain ⟨k, hk, hkx⟩ := hst
  obtain ⟨j, h1, _, h2⟩ := next_cell h hk ((f6 x hx k).1 hkx)
  have hstab : ∃ δ : ℤ, |δ| ≤ 1 ∧ period (bds i) (code.dims i) ∣ x i - pos code i (.stab k) - δ := by
    show ∃ δ : ℤ, |δ| ≤ 1 ∧ period (bds i) (code.dims i) ∣ x i - cellOf code k i - δ
    by_cases hij : i = j
    · subst hij
      rcases nextTo_cong h1 with h1 | h1
      · exact ⟨1, by simp, h1⟩
      · exact ⟨-1, by simp, by simpa using h1⟩
    · exact ⟨0, by simp, by rw [(h2 i hij).1]; simp⟩
  by_cases huk : u = .stab k
  · subst huk
    obtain ⟨δ, h3, h4⟩ := hstab
    exact ⟨δ, by omega, h4⟩
  · have he : s(u, SNode.stab k) ∈ codeEs sp code := by
      rw [← (Sym2.mem_and_mem_iff huk).1 ⟨hu, hkx⟩]
      exact Finset.mem_image_of_mem _ (by simpa using hx)
    obtain ⟨δ, h3, h4⟩ := hstab
    obtain ⟨δ', h5, h6⟩ := near_pos h sp hd i (Near.edge he)
    refine ⟨δ + δ', ?_, ?_⟩
    · have := abs_add_le δ δ'
      push_cast at h5
      omega
    · have := Int.dvd_add h4 h6
      convert this using 1
      ring

/-- The coordinates of qubits with near edges. -/
theorem qubits_near (hd : ∀ i, bds i = .periodic → 3 ≤ code.dims i) (i : Fin 3) {x y : V} (hx : x ∈ code.syndrome) (hy : y ∈ code.syndrome) {r : ℕ}
    (hn : eNear (codeEs sp code) r (qEdge sp code x) (qEdge sp code y)) :
    ∃ δ : ℤ, |δ| ≤ 2 * r + 6 ∧ period (bds i) (code.dims i) ∣ y i - x i - δ := by
  obtain ⟨δ₁, h1, h2⟩ := qubit_pos h sp hd i hx (Sym2.out_fst_mem _)
  obtain ⟨δ₂, h3, h4⟩ := qubit_pos h sp hd i hy (Sym2.out_fst_mem _)
  obtain ⟨δ, h5, h6⟩ := near_pos h sp hd i hn
  refine ⟨δ + δ₂ - δ₁, ?_, ?_⟩
  · have e1 := abs_sub (δ + δ₂) δ₁
    have e2 := abs_add_le δ δ₂
    omega
  · have := Int.dvd_sub (Int.dvd_add h4 h6) h2
    convert this using 1
    ring


/-- The edges of the bad qubits: flipped, or with weight -1. -/
noncomputable def badEdges (sp : SetPop) (code : Code) (w : V → ℚ) (bits : V → Bool) : Finset (Sym2 SNode) :=
  (code.syndrome.toFinset.filter fun x => bits x = true ∨ w x = -1).image (qEdge sp code)

/-- If only islands are bad, and the code is larger than the clusters, no plane parity is odd after the recovery. -/
theorem uf_sparse (hd : ∀ i, bds i = .periodic → 3 ≤ code.dims i) (cl : CompLib SNode) (io : IterOrder SNode) {fuel : ℕ}
    {s s' : St} {odd : List SNode} (hs : initState cl io (II) = some (s, odd)) (hu : unionFind io (II) fuel 0 s odd = some s')
    {R : List V} (hR : ∀ x ∈ R, ∃ e ∈ grownL s'.status, (e, some x) ∈ codeEdges sp code)
    (htriv : trivialSyndrome code fun x => xor (bits x) (decide (x ∈ R))) {i : Fin 3}
    (hi : i ∈ planesToCheck code.ec code.boundaries)
    {a b tau rho delta e : ℕ → ℕ} (sc : Scales a b tau rho delta e) {k : ℕ} (hk : El (codeEs sp code) (badEdges sp code w bits) a b k = ∅)
    (hlow : 2 * e k + 8 ≤ code.dims i) :
    sheetParity code (fun x => xor (bits x) (decide (x ∈ R))) i (lowF code.ec) = false := by
  classical
  by_contra hodd
  rw [Bool.not_eq_false] at hodd
  have hI := wf_code h bk sp w bits
  obtain ⟨f1, f2, f3, f4, f5, f6⟩ := qEdge_map h bk sp w bits hd
  set f := qEdge sp code with hf
  set ones := code.syndrome.toFinset.filter fun x => bits x = true with hones
  have hones_mem : ∀ x, x ∈ ones ↔ x ∈ code.syndrome ∧ bits x = true := fun x => by
    rw [hones, Finset.mem_filter, List.mem_toFinset]
  set Er := ones.image f with hEr
  have hE : Explains (II) Er := by
    refine ⟨fun e he => ?_, fun k hk => ?_⟩
    · obtain ⟨x, hx, rfl⟩ := Finset.mem_image.1 he
      rw [List.mem_toFinset]
      exact (f4 _).2 ⟨x, ((hones_mem x).1 hx).1, rfl⟩
    · rw [odd_code h, parity_mem, decide_eq_true_eq]
      have hk' : k < code.stabs.length := (stab_mem_nodes h bk sp w bits).1 (erasureNodes_sub hI hk).1
      have : Er.filter (SNode.stab k ∈ ·) = ((code.stabs.getD k []).filter bits).toFinset.image f := by
        ext e
        simp only [Finset.mem_filter, hEr, Finset.mem_image, List.mem_toFinset, List.mem_filter]
        constructor
        · rintro ⟨⟨x, hx, rfl⟩, hxk⟩
          have := (hones_mem x).1 hx
          exact ⟨x, ⟨(f6 x this.1 k).1 hxk, this.2⟩, rfl⟩
        · rintro ⟨x, ⟨hx, hb⟩, rfl⟩
          have hxs := h.ok.1.mem_syndrome_of_stab hx
          exact ⟨⟨x, (hones_mem x).2 ⟨hxs, hb⟩, rfl⟩, (f6 x hxs k).2 hx⟩
      rw [this, Finset.card_image_of_injOn, List.toFinset_card_of_nodup ((h.stab_nodup hk').filter _)]
      intro x hx y hy hxy
      simp only [List.coe_toFinset, Set.mem_ofPred_eq, List.mem_filter] at hx hy
      exact f3 x (h.ok.1.mem_syndrome_of_stab hx.1) y (h.ok.1.mem_syndrome_of_stab hy.1) hxy
  have hB : Er ∪ (erasureEdges (II)).toFinset = badEdges sp code w bits := by
    ext e
    rw [Finset.mem_union, List.mem_toFinset, erasureEdges, List.mem_filter, f4, badEdges, hEr, Finset.mem_image, Finset.mem_image]
    constructor
    · rintro (⟨x, hx, rfl⟩ | ⟨⟨x, hx, rfl⟩, he⟩)
      · obtain ⟨h1, h2⟩ := (hones_mem x).1 hx
        exact ⟨x, Finset.mem_filter.2 ⟨by simpa using h1, Or.inl h2⟩, rfl⟩
      · rw [f5 x hx, decide_eq_true_eq] at he
        exact ⟨x, Finset.mem_filter.2 ⟨by simpa using hx, Or.inr he⟩, rfl⟩
    · rintro ⟨x, hx, rfl⟩
      obtain ⟨h1, h2⟩ := Finset.mem_filter.1 hx
      rw [List.mem_toFinset] at h1
      rcases h2 with h2 | h2
      · exact Or.inl ⟨x, (hones_mem x).2 ⟨h1, h2⟩, rfl⟩
      · exact Or.inr ⟨⟨x, h1, rfl⟩, by rw [f5 x h1, decide_eq_true_eq]; exact h2⟩
  have hloc : ∀ {u v : SNode}, Relation.ReflTransGen (fun x y => s(x, y) ∈ badEdges sp code w bits ∨
      s(x, y) ∈ codeEs sp code ∧ lvl s'.status s(x, y) = 2) u v → Near (codeEs sp code) (e k) u v := by
    intro u v huv
    have := unionFind_local cl io hI hE hs hu sc (k := k) (u := u) (v := v)
    rw [hB, esF_eq h bk sp w bits hd] at this
    exact this hk huv
  set bits' : V → Bool := fun x => xor (bits x) (decide (x ∈ R)) with hb'
  set Rel : SNode → SNode → Prop := Relation.ReflTransGen (fun x y => s(x, y) ∈ badEdges sp code w bits ∨
      s(x, y) ∈ codeEs sp code ∧ lvl s'.status s(x, y) = 2) with hRel
  have hsymm : ∀ {u v}, Rel u v → Rel v u := by
    intro u v huv
    induction huv with
    | refl => exact .refl
    | tail _ h ih => exact Relation.ReflTransGen.head (by rw [Sym2.eq_swap]; exact h) ih
  -- the ends of the edge of a qubit that is not correct are connected
  have hends : ∀ x ∈ code.syndrome, bits' x = true → ∀ u ∈ f x, Rel (f x).out.1 u := by
    intro x hx hxb u hu
    by_cases huo : (f x).out.1 = u
    · rw [huo]
    · have he : f x = s((f x).out.1, u) := (Sym2.mem_and_mem_iff huo).1 ⟨Sym2.out_fst_mem _, hu⟩
      refine .single ?_
      rw [← he]
      by_cases hbx : bits x = true
      · exact Or.inl (Finset.mem_image.2 ⟨x, Finset.mem_filter.2 ⟨by simpa using hx, Or.inl hbx⟩, rfl⟩)
      · have hxR : x ∈ R := by
          rw [hb'] at hxb
          simpa [hbx] using hxb
        obtain ⟨e, he, hex⟩ := hR x hxR
        rw [(f2 e x hex).2] at he
        exact Or.inr ⟨Finset.mem_image_of_mem _ (by simpa using hx), mem_grownL.1 he⟩
  -- a component with an odd plane
  have hoddS : Odd (∑ x ∈ code.syndrome.toFinset.filter (fun x => bits' x = true), if x i = lowF code.ec then 1 else 0) := by
    unfold sheetParity at hodd
    simp only at hodd
    rw [← parity_eq, parity_mem, decide_eq_true_eq] at hodd
    rw [Finset.sum_boole, Nat.cast_id]
    convert hodd using 1
    rw [← List.toFinset_card_of_nodup (((List.nodup_dedup _).filter _).filter _)]
    congr 1
    ext x
    simp only [Finset.mem_filter, List.mem_toFinset, List.mem_filter, List.mem_dedup, sliceCoords, decide_eq_true_eq]
    constructor
    · rintro ⟨⟨h1, h2⟩, h3⟩
      exact ⟨⟨⟨h.syndrome_node h1, h3⟩, h1⟩, h2⟩
    · rintro ⟨⟨⟨_, h3⟩, h1⟩, h2⟩
      exact ⟨⟨h1, h2⟩, h3⟩
  obtain ⟨x₀, hx₀, C, hC, hCo⟩ := odd_class (R := fun x y : V => Rel (f x).out.1 (f y).out.1) (fun _ => .refl) (fun _ _ => hsymm) (fun _ _ _ => .trans)
    (fun x => if x i = lowF code.ec then 1 else 0) _ _ (Finset.Subset.refl _) (fun _ _ y hy _ => hy) hoddS
  have hCm : ∀ x, x ∈ C ↔ (x ∈ code.syndrome ∧ bits' x = true) ∧ Rel (f x₀).out.1 (f x).out.1 := by
    intro x
    rw [hC, Finset.mem_filter, List.mem_toFinset]
  set bC : V → Bool := fun x => decide (x ∈ C) with hbC
  have htrivC : trivialSyndrome code bC := by
    intro st hst
    have hst' := htriv st hst
    rw [parity_mem, decide_eq_false_iff_not] at hst' ⊢
    obtain ⟨j, hj, rfl⟩ := List.getElem_of_mem hst
    have hg : ∀ x, x ∈ code.stabs[j] → x ∈ code.syndrome ∧ SNode.stab j ∈ f x := by
      intro x hx
      rw [← List.getD_eq_getElem code.stabs [] hj] at hx
      have hxs := h.ok.1.mem_syndrome_of_stab hx
      exact ⟨hxs, (f6 x hxs j).2 hx⟩
    by_cases hjc : Rel (f x₀).out.1 (.stab j)
    · have : code.stabs[j].filter bC = code.stabs[j].filter bits' := by
        refine List.filter_congr fun x hx => ?_
        obtain ⟨h1, h2⟩ := hg x hx
        rw [hbC, Bool.eq_iff_iff, decide_eq_true_eq, hCm]
        constructor
        · exact fun h => h.1.2
        · exact fun h => ⟨⟨h1, h⟩, hjc.trans (hsymm (hends x h1 h _ h2))⟩
      rw [this]
      exact hst'
    · have : code.stabs[j].filter bC = [] := by
        rw [List.filter_eq_nil_iff]
        intro x hx hxc
        obtain ⟨h1, h2⟩ := hg x hx
        rw [hbC, decide_eq_true_eq, hCm] at hxc
        exact hjc (hxc.2.trans (hends x h1 hxc.1.2 _ h2))
      rw [this]
      simp
  have hoddC : sheetParity code bC i (lowF code.ec) = true := by
    unfold sheetParity
    simp only
    rw [← parity_eq, parity_mem, decide_eq_true_eq]
    rw [Finset.sum_boole, Nat.cast_id] at hCo
    convert hCo using 1
    rw [← List.toFinset_card_of_nodup (((List.nodup_dedup _).filter _).filter _)]
    congr 1
    ext x
    simp only [Finset.mem_filter, List.mem_toFinset, List.mem_filter, List.mem_dedup, sliceCoords, decide_eq_true_eq, hbC]
    constructor
    · rintro ⟨⟨⟨_, h3⟩, h1⟩, h2⟩
      exact ⟨h2, h3⟩
    · rintro ⟨h1, h3⟩
      have := ((hCm x).1 h1).1.1
      exact ⟨⟨⟨h.syndrome_node this, h3⟩, this⟩, h1⟩
  have hall := odd_all h htrivC hi hoddC
  obtain ⟨x, hx, hxi, hxC⟩ := hall 0 (by omega)
  obtain ⟨y, hy, hyi, hyC⟩ := hall (code.dims i / 2) (by omega)
  rw [hbC, decide_eq_true_eq, hCm] at hxC hyC
  have hn : eNear (codeEs sp code) (e k) (qEdge sp code x) (qEdge sp code y) := hloc ((hsymm hxC.2).trans hyC.2)
  obtain ⟨δ, h1, h2⟩ := qubits_near h sp hd i hx hy hn
  rw [hxi, hyi] at h2
  obtain ⟨h3, h4⟩ := abs_le.1 h1
  obtain ⟨q, hq⟩ := h2
  have hm1 : 2 * (code.dims i / 2) ≤ code.dims i := by omega
  have hm2 : code.dims i ≤ 2 * (code.dims i / 2) + 1 := by omega
  generalize code.dims i / 2 = m at *
  unfold period at hq
  split_ifs at hq
  · rcases lt_trichotomy q 0 with hq0 | rfl | hq0
    · have : (2 * (code.dims i : ℤ)) * q ≤ (2 * (code.dims i : ℤ)) * (-1) := mul_le_mul_of_nonneg_left (by omega) (by omega)
      omega
    · omega
    · have : (2 * (code.dims i : ℤ)) * 1 ≤ (2 * (code.dims i : ℤ)) * q := mul_le_mul_of_nonneg_left (by omega) (by omega)
      omega
  · omega

end

end Flamingpy.UnionFind
