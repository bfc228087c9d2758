import Verif.Proofs.UfForest
import Verif.Props.Mwpm

/-! # Union-Find on the stabilizer graph of a code -/

namespace Flamingpy.UnionFind

open Flamingpy SurfaceCode

section
variable {code : Code} (h : IsCode code) (bk : Backend) (sp : SetPop) (w : V → ℚ) (bits : V → Bool)

local notation "II" => ufInput (stabGraph bk sp code) w bits

include h

theorem mem_realE_code {e : Sym2 SNode} : e ∈ realE (II).E ↔ ∃ x, (e, some x) ∈ codeEdges sp code := by
  unfold realE ufInput
  simp only
  rw [List.mem_filter, keys_weightedEdges, (h.stabGraph bk sp).1, decide_eq_true_eq]
  constructor
  · rintro ⟨h1, h2, h3⟩
    obtain ⟨⟨e', cv⟩, hm, rfl⟩ := List.mem_map.1 h1
    cases cv with
    | none =>
      rcases (edge_none sp hm).1 with ⟨h4, _⟩ | ⟨h4, _⟩
      · exact absurd h4 h2
      · exact absurd h4 h3
    | some x => exact ⟨x, hm⟩
  · rintro ⟨x, hx⟩
    obtain ⟨_, _, h1, h2⟩ := h.ok.1.edge_effect h.ok.2 sp hx
    exact ⟨List.mem_map.2 ⟨_, hx, rfl⟩, h1, h2⟩

theorem nodes_code : (II).nodes = [SNode.low, .high] ++ (List.range code.stabs.length).map SNode.stab ++
    code.boundPoints.map SNode.pt := by
  unfold ufInput
  rw [stabGraph_eq bk sp code (h.ok.1.bound_nodup h.ok.2)]

theorem stab_mem_nodes {k : ℕ} : SNode.stab k ∈ (II).nodes ↔ k < code.stabs.length := by
  rw [nodes_code h]; simp

theorem odd_code (k : ℕ) : (II).odd k = parity bits (code.stabs.getD k []) := by
  unfold ufInput StabGraph.coords
  simp only [(h.stabGraph bk sp).2.1]

theorem wf_code : Wf (II) := by
  have hb := h.ok.1.bound_nodup h.ok.2
  have hreal : ∀ e ∈ realE (II).E, (∃ i j, i < j ∧ j < code.stabs.length ∧ e = s(.stab i, .stab j)) ∨
      ∃ k p, k < code.stabs.length ∧ p ∈ code.boundPoints ∧ e = s(.stab k, .pt p) := by
    intro e he
    obtain ⟨x, hx⟩ := (mem_realE_code h bk sp w bits).1 he
    rcases mem_codeEdges.1 hx with ⟨p, _, h1⟩ | ⟨p, _, h1⟩ | ⟨i, j, hij, hj, hc, h1⟩ | ⟨k, p, hk, hp, hpk, h1⟩
    · cases h1
    · cases h1
    · exact Or.inl ⟨i, j, hij, hj, (Prod.mk.inj h1).1⟩
    · exact Or.inr ⟨k, p, hk, hp, (Prod.mk.inj h1).1⟩
  refine ⟨?_, ?_, ?_, ?_⟩
  · rw [nodes_code h, List.nodup_append, List.nodup_append]
    refine ⟨⟨by simp, List.nodup_range.map (fun a b e => by simpa using e), ?_⟩, hb.map (fun a b e => by simpa using e), ?_⟩
    · intro a ha b hb
      obtain ⟨k, _, rfl⟩ := List.mem_map.1 hb
      rintro rfl
      simp at ha
    · intro a ha b hb
      obtain ⟨p, _, rfl⟩ := List.mem_map.1 hb
      rintro rfl
      simp at ha
  · intro e he v hv
    rw [nodes_code h]
    rcases hreal e he with ⟨i, j, hij, hj, rfl⟩ | ⟨k, p, hk, hp, rfl⟩
    · rcases Sym2.mem_iff.1 hv with rfl | rfl
      · simp; omega
      · simp; omega
    · rcases Sym2.mem_iff.1 hv with rfl | rfl
      · simp; omega
      · simp [hp]
  · intro e he
    rcases hreal e he with ⟨i, j, hij, hj, rfl⟩ | ⟨k, p, hk, hp, rfl⟩
    · simp; omega
    · simp
  · unfold ufInput
    simp only
    rw [keys_weightedEdges, (h.stabGraph bk sp).1]
    exact h.ok.1.codeEdges_nodup h.ok.2 sp

theorem get_code {e : Sym2 SNode} {x : V} (he : (e, some x) ∈ codeEdges sp code) :
    PyDict.get? (stabGraph bk sp code).edges e = some (some x) := by
  rw [(h.stabGraph bk sp).1, PyDict.get?_iff_mem (h.ok.1.codeEdges_nodup h.ok.2 sp)]
  exact he

theorem labels_code : Labels (II) (stabGraph bk sp code).edges := by
  refine ⟨fun e he => ?_, fun e he f hf hef => ?_⟩
  · obtain ⟨x, hx⟩ := (mem_realE_code h bk sp w bits).1 he
    exact ⟨_, get_code h bk sp hx⟩
  · obtain ⟨x, hx⟩ := (mem_realE_code h bk sp w bits).1 he
    obtain ⟨y, hy⟩ := (mem_realE_code h bk sp w bits).1 hf
    rw [get_code h bk sp hx, get_code h bk sp hy] at hef
    obtain rfl : x = y := by simpa using hef
    exact h.ok.1.edge_unique h.ok.2 sp hx hy

theorem reach_conn {a b : SNode} (hr : Reach (withoutConnectors (II).E) a b) : Conn (realE (II).E) a b := by
  obtain ⟨p, hp⟩ := hr
  refine hp.ind (motive := fun a _ => Conn (realE (II).E) a b) (Conn.refl _ _) fun a c p hac _ ih => ?_
  refine (Conn.edge ?_).trans ih
  rw [mem_keys_withoutConnectors] at hac
  unfold realE
  rw [List.mem_filter, decide_eq_true_eq]
  exact hac

theorem stab_conn {k k' : ℕ} (hk : k < code.stabs.length) (hk' : k' < code.stabs.length) :
    Conn (realE (II).E) (.stab k) (.stab k') := reach_conn h bk sp w bits (reach_noConn h bk sp w hk hk')

theorem compOk_code : CompOk (II) := by
  intro k hk ho
  rw [stab_mem_nodes h] at hk
  by_cases hb : code.boundaries = .open
  · left
    obtain ⟨x, hx, hxe⟩ := slice_point h hb (Or.inl rfl)
    have hxb : x ∈ code.boundPoints := (h.ok.1.mem_bound x).2 ⟨hx, hb, Or.inl hxe⟩
    have hc := h.ok.1.stabsOf_card h.ok.2 hx
    rw [if_pos hxb] at hc
    obtain ⟨j, hj⟩ := Finset.card_eq_one.1 hc
    have hjm : j ∈ stabsOf code.stabs x := by rw [hj]; simp
    obtain ⟨h1, h2⟩ := mem_stabsOf.1 hjm
    refine ⟨x, (stab_conn h bk sp w bits hk h1).trans (Conn.edge ?_)⟩
    exact (mem_realE_code h bk sp w bits).2 ⟨x, mem_codeEdges.2 (Or.inr (Or.inr (Or.inr ⟨j, x, h1, hxb, h2, rfl⟩)))⟩
  · right
    obtain ⟨lib⟩ := pathLib_exists
    obtain ⟨ml⟩ := matchLib_exists
    obtain ⟨_, _, _, _, _, he⟩ := C37_perfect h bk lib ml sp (fun _ => 0) (fun _ _ => le_rfl) bits
    have he := (he hb).2
    have hnd : (oddStabs (stabGraph bk sp code) bits).Nodup :=
      (oddStabs_pairwise (stabGraph bk sp code) bits).imp (fun {a b} h => Nat.ne_of_lt h)
    have hset : oddComp (II) (realE (II).E) (.stab k) =
        ↑((oddStabs (stabGraph bk sp code) bits).map SNode.stab).toFinset := by
      ext u
      rw [List.coe_toFinset]
      constructor
      · rintro ⟨j, rfl, h1, h2, h3⟩
        rw [stab_mem_nodes h] at h1
        rw [odd_code h] at h2
        exact List.mem_map.2 ⟨j, (mem_oddStabs bk sp h).2 ⟨h1, h2⟩, rfl⟩
      · intro hu
        obtain ⟨j, hj, rfl⟩ := List.mem_map.1 hu
        obtain ⟨h1, h2⟩ := (mem_oddStabs bk sp h).1 hj
        exact ⟨j, rfl, (stab_mem_nodes h bk sp w bits).2 h1, by rw [odd_code h]; exact h2, stab_conn h bk sp w bits hk h1⟩
    rw [hset, Set.ncard_coe_finset, List.toFinset_card_of_nodup (hnd.map (fun a b e => by simpa using e)), List.length_map]
    exact he

/-- The decoder: its growth, and the qubits it flips; a boundary qubit only if its cluster is odd. -/
theorem uf_bound (cl : CompLib SNode) (sl : SpanLib SNode (Option V)) (io : IterOrder SNode) (fuel : ℕ)
    (hf : 2 * (realE (II).E).length + 1 ≤ fuel) :
    ∃ (R : List V) (s : St) (odd : List SNode) (s' : St), initState cl io (II) = some (s, odd) ∧
      unionFind io (II) fuel 0 s odd = some s' ∧ (∀ k ∈ erasureEdges (II), k ∈ grownL s'.status) ∧
      ufDecoder cl sl io fuel (stabGraph bk sp code) w bits = some (R.map some) ∧ R.Nodup ∧
      (∀ x ∈ R, ∃ e ∈ grownL s'.status, (e, some x) ∈ codeEdges sp code) ∧
      (∀ k < code.stabs.length, parity (fun x => decide (x ∈ R)) (code.stabs.getD k []) = parity bits (code.stabs.getD k [])) ∧
      ∀ p, Even (oddComp (II) (grownL s'.status) (.pt p)).ncard → p ∈ code.boundPoints → p ∉ R := by
  have hI := wf_code h bk sp w bits
  obtain ⟨s, odd, s', rep, dep, e1, e2, H, her⟩ := unionFind_spec cl io hI (compOk_code h bk sp w bits) fuel hf
  obtain ⟨ns, fs, par, e3, _, hnd, hfq, hfe, hsub, hpar, hbd⟩ := decode_spec cl sl hI (labels_code h bk sp w bits) H
  set Q := (peeling ns fs par).2.2 with hQ
  have hdec : ufDecoder cl sl io fuel (stabGraph bk sp code) w bits = some Q := by
    unfold ufDecoder
    simp only [e1, e2, e3, Option.bind_eq_bind, Option.bind_some, Option.pure_def]
    rfl
  have hedge : ∀ e ∈ fs, ∃ x, e.2.2 = some x ∧ (s(e.1, e.2.1), some x) ∈ codeEdges sp code := by
    intro e he
    obtain ⟨h1, h2⟩ := hfe e he
    obtain ⟨x, hx⟩ := (mem_realE_code h bk sp w bits).1 (grownL_sub H.status h1)
    rw [get_code h bk sp hx] at h2
    exact ⟨x, (Option.some.inj h2).symm, hx⟩
  have hQs : ∀ q ∈ Q, ∃ x, ∃ e ∈ grownL s'.status, q = some x ∧ (e, some x) ∈ codeEdges sp code := by
    intro q hq
    obtain ⟨e, he, rfl⟩ := List.mem_map.1 (hsub q hq)
    obtain ⟨x, h1, h2⟩ := hedge e he
    exact ⟨x, _, (hfe e he).1, h1, h2⟩
  obtain ⟨R, hR⟩ : ∃ R : List V, Q = R.map some := by
    clear hdec hsub hpar hnd hbd
    clear hQ
    clear_value Q
    induction Q with
    | nil => exact ⟨[], rfl⟩
    | cons q Q ih =>
      obtain ⟨x, _, _, rfl, _⟩ := hQs q (by simp)
      obtain ⟨R, rfl⟩ := ih fun q hq => hQs q (by simp [hq])
      exact ⟨x :: R, rfl⟩
  have hRn : R.Nodup := by rw [hR] at hnd; exact List.Nodup.of_map _ hnd
  have hmemR : ∀ x, x ∈ R ↔ some x ∈ Q := fun x => by rw [hR]; simp
  refine ⟨R, s, odd, s', e1, e2, her, by rw [hdec, hR], hRn, fun x hx => ?_, fun k hk => ?_, fun p he hp hpR => ?_⟩
  · obtain ⟨y, e, h3, h1, h2⟩ := hQs _ ((hmemR x).1 hx)
    obtain rfl : x = y := by simpa using h1
    exact ⟨e, h3, h2⟩
  · by_cases hke : SNode.stab k ∈ erasureNodes (II)
    · have h1 := hpar k hke
      rw [odd_code h] at h1
      rw [parity_mem, Bool.eq_iff_iff, decide_eq_true_eq, ← h1]
      have hp : ((fs.filter fun e => decide (e.2.2 ∈ Q ∧ (e.1 = .stab k ∨ e.2.1 = .stab k))).map fun e => e.2.2).Perm
          (((code.stabs.getD k []).filter fun x => decide (x ∈ R)).map some) := by
        refine (List.perm_ext_iff_of_nodup (hfq.sublist (List.filter_sublist.map _))
          (((h.stab_nodup hk).filter _).map (Option.some_injective _))).2 fun q => ?_
        constructor
        · intro hq
          obtain ⟨e, he, rfl⟩ := List.mem_map.1 hq
          rw [List.mem_filter, decide_eq_true_eq] at he
          obtain ⟨x, hx1, hx2⟩ := hedge e he.1
          rw [hx1] at he ⊢
          refine List.mem_map.2 ⟨x, List.mem_filter.2 ⟨?_, by simpa using (hmemR x).2 he.2.1⟩, rfl⟩
          rw [(h.ok.1.edge_effect h.ok.2 sp hx2).2.1 k, Sym2.mem_iff]
          exact he.2.2.imp Eq.symm Eq.symm
        · intro hq
          obtain ⟨x, hx, rfl⟩ := List.mem_map.1 hq
          rw [List.mem_filter, decide_eq_true_eq] at hx
          have hxQ := (hmemR x).1 hx.2
          obtain ⟨e, he, hex⟩ := List.mem_map.1 (hsub _ hxQ)
          refine List.mem_map.2 ⟨e, List.mem_filter.2 ⟨he, ?_⟩, hex⟩
          obtain ⟨y, hy1, hy2⟩ := hedge e he
          obtain rfl : y = x := by rw [hy1] at hex; simpa using hex
          rw [decide_eq_true_eq, hex]
          have := ((h.ok.1.edge_effect h.ok.2 sp hy2).2.1 k).1 hx.1
          exact ⟨hxQ, (Sym2.mem_iff.1 this).imp Eq.symm Eq.symm⟩
      have := hp.length_eq
      rw [List.length_map, List.length_map, ← List.countP_eq_length_filter] at this
      rw [← this]
    · have hnil : code.stabs.getD k [] = [] := by
        by_contra hne
        obtain ⟨x, hx⟩ := List.exists_mem_of_ne_nil _ hne
        obtain ⟨e, y, he, hs⟩ := h.ok.1.qubit_edge h.ok.2 sp (h.ok.1.mem_syndrome_of_stab hx)
        have hky : y ∈ code.stabs.getD k [] := mem_stabsOf'.1 (by rw [hs]; exact mem_stabsOf'.2 hx)
        exact hke ((mem_erasureNodes hI).2 ⟨e, (mem_realE_code h bk sp w bits).2 ⟨y, he⟩,
          ((h.ok.1.edge_effect h.ok.2 sp he).2.1 k).1 hky⟩)
      rw [hnil]; rfl
  · have := hbd (.pt p) rfl he
    obtain ⟨e, hef, hex⟩ := List.mem_map.1 (hsub _ ((hmemR p).1 hpR))
    have hlab : ∀ e ∈ fs, (e.1 = .pt p ∨ e.2.1 = .pt p) ↔ e.2.2 = some p := by
      intro e he
      obtain ⟨y, hy1, hy2⟩ := hedge e he
      rw [hy1, Option.some.injEq]
      rcases mem_codeEdges.1 hy2 with ⟨q, _, h1⟩ | ⟨q, _, h1⟩ | ⟨a, b, hij, hj, hc, h1⟩ | ⟨k, q, hk, hq, hqk, h1⟩
      · simp at h1
      · simp at h1
      · have hnb : y ≠ p := by
          rintro rfl
          have := ((h.ok.1.edge_effect h.ok.2 sp hy2).2.1 a).2 (by rw [(Prod.mk.inj h1).1]; simp)
          have h2 := ((h.ok.1.edge_effect h.ok.2 sp hy2).2.1 b).2 (by rw [(Prod.mk.inj h1).1]; simp)
          have h3 := h.ok.1.stabsOf_bound h.ok.2 this hp
          have h4 := mem_stabsOf'.2 h2
          rw [h3, Finset.mem_singleton] at h4
          omega
        have : ¬ (e.1 = .pt p ∨ e.2.1 = .pt p) := by
          intro hpe
          have : SNode.pt p ∈ s(e.1, e.2.1) := Sym2.mem_iff.2 (hpe.imp Eq.symm Eq.symm)
          rw [(Prod.mk.inj h1).1] at this
          simp at this
        simp [this, hnb]
      · have h2 := Option.some.inj (Prod.mk.inj h1).2
        have h3 := (Prod.mk.inj h1).1
        constructor
        · intro hpe
          have : SNode.pt p ∈ s(e.1, e.2.1) := Sym2.mem_iff.2 (hpe.imp Eq.symm Eq.symm)
          rw [h3] at this
          simp at this
          rw [h2, this]
        · intro hyp
          have : SNode.pt p ∈ s(e.1, e.2.1) := by rw [h3, ← h2, hyp]; simp
          exact (Sym2.mem_iff.1 this).imp Eq.symm Eq.symm
    have h1 : (fs.countP fun e => decide (e.2.2 ∈ Q ∧ (e.1 = .pt p ∨ e.2.1 = .pt p))) = (fs.map fun e => e.2.2).count (some p) := by
      rw [List.count, List.countP_map]
      refine List.countP_congr fun e he => ?_
      simp only [hlab e he, decide_eq_true_eq, Function.comp, beq_iff_eq]
      exact ⟨fun h => h.2, fun h => ⟨by rw [h]; exact (hmemR p).1 hpR, h⟩⟩
    rw [h1, List.count_eq_one_of_mem hfq (List.mem_map.2 ⟨e, hef, hex⟩)] at this
    exact absurd this (by decide)

/-- The decoder: its growth, and the qubits it flips. -/
theorem uf_exact (cl : CompLib SNode) (sl : SpanLib SNode (Option V)) (io : IterOrder SNode) (fuel : ℕ)
    (hf : 2 * (realE (II).E).length + 1 ≤ fuel) :
    ∃ (R : List V) (s : St) (odd : List SNode) (s' : St), initState cl io (II) = some (s, odd) ∧
      unionFind io (II) fuel 0 s odd = some s' ∧ (∀ k ∈ erasureEdges (II), k ∈ grownL s'.status) ∧
      ufDecoder cl sl io fuel (stabGraph bk sp code) w bits = some (R.map some) ∧ R.Nodup ∧
      (∀ x ∈ R, ∃ e ∈ grownL s'.status, (e, some x) ∈ codeEdges sp code) ∧
      ∀ k < code.stabs.length, parity (fun x => decide (x ∈ R)) (code.stabs.getD k []) = parity bits (code.stabs.getD k []) := by
  obtain ⟨R, s, odd, s', h1, h2, h3, h4, h5, h6, h7, -⟩ := uf_bound h bk sp w bits cl sl io fuel hf
  exact ⟨R, s, odd, s', h1, h2, h3, h4, h5, h6, h7⟩

theorem uf_spec (cl : CompLib SNode) (sl : SpanLib SNode (Option V)) (io : IterOrder SNode) (fuel : ℕ)
    (hf : 2 * (realE (II).E).length + 1 ≤ fuel) :
    ∃ R : List V, ufDecoder cl sl io fuel (stabGraph bk sp code) w bits = some (R.map some) ∧ R.Nodup ∧
      (∀ x ∈ R, ∃ e, (e, some x) ∈ codeEdges sp code) ∧
      ∀ k < code.stabs.length, parity (fun x => decide (x ∈ R)) (code.stabs.getD k []) = parity bits (code.stabs.getD k []) := by
  obtain ⟨R, s, odd, s', _, _, _, h1, h2, h3, h4⟩ := uf_exact h bk sp w bits cl sl io fuel hf
  exact ⟨R, h1, h2, fun x hx => let ⟨e, _, he⟩ := h3 x hx; ⟨e, he⟩, h4⟩

end

end Flamingpy.UnionFind
