import Verif.Props.UfDistance
import Verif.Props.HalfNoise

/-!
# C97: Union-Find on pure erasures
-/

namespace Flamingpy.Trial

open Flamingpy Flamingpy.SurfaceCode Flamingpy.UnionFind Flamingpy.Weights Flamingpy.Sim

/-- The pattern lives on erased qubits. -/
def OnErased (code : Code) (w : V → ℚ) (bits : V → Bool) : Prop := ∀ x ∈ code.syndrome, bits x = true → w x = -1

/-- The pattern is a sum of noiseless patterns: the outcomes of some values of the nodes. -/
def Noiseless (code : Code) (bits : V → Bool) : Prop :=
  ∃ vals : V → Bool, ∀ x ∈ code.syndrome, bits x = parity vals (neighbors code x)

/-! ### Proofs -/

section
variable {code : Code} (h : IsCode code) (bk : Backend) (sp : SetPop) (w : V → ℚ) (bits : V → Bool)

local notation "II" => ufInput (stabGraph bk sp code) w bits

include h

theorem explains_code (hd : ∀ i, boundsOf code.ec code.boundaries i = .periodic → 3 ≤ code.dims i) :
    ∃ Er : Finset (Sym2 SNode), Explains (II) Er ∧ ∀ e ∈ Er, ∃ x ∈ code.syndrome, bits x = true ∧ erased (II).E e = decide (w x = -1) := by
  classical
  obtain ⟨f, f1, f2, f3, f4, f5, f6, f7⟩ := edge_map h bk sp w bits hd
  have hI := wf_code h bk sp w bits
  set ones := code.syndrome.toFinset.filter fun x => bits x = true with hones
  have hones_mem : ∀ x, x ∈ ones ↔ x ∈ code.syndrome ∧ bits x = true := fun x => by
    rw [hones, Finset.mem_filter, List.mem_toFinset]
  refine ⟨ones.image f, ⟨fun e he => ?_, fun k hk => ?_⟩, fun e he => ?_⟩
  · obtain ⟨x, hx, rfl⟩ := Finset.mem_image.1 he
    rw [List.mem_toFinset]
    exact (f4 _).2 ⟨x, ((hones_mem x).1 hx).1, rfl⟩
  · rw [odd_code h, parity_mem, decide_eq_true_eq]
    have hk' : k < code.stabs.length := (stab_mem_nodes h bk sp w bits).1 (erasureNodes_sub hI hk).1
    have : (ones.image f).filter (SNode.stab k ∈ ·) = ((code.stabs.getD k []).filter bits).toFinset.image f := by
      ext e
      simp only [Finset.mem_filter, Finset.mem_image, List.mem_toFinset, List.mem_filter]
      constructor
      · rintro ⟨⟨x, hx, rfl⟩, hxk⟩
        have := (hones_mem x).1 hx
        exact ⟨x, ⟨(f6 x this.1 k).1 hxk, this.2⟩, rfl⟩
      · rintro ⟨x, ⟨hx, hb⟩, rfl⟩
        have hxs := h.ok.1.mem_syndrome_of_stab hx
        exact ⟨⟨x, (hones_mem x).2 ⟨hxs, hb⟩, rfl⟩, (f6 x hxs k).2 hx⟩
    rw [this, Finset.card_image_of_injOn, List.toFinset_card_of_nodup ((h.stab_nodup hk').filter _)]
    intro x hx y hy hxy
    simp only [List.coe_toFinset, Set.mem_ofPred_eq, List.mem_filter] at hx hy
    exact f3 x (h.ok.1.mem_syndrome_of_stab hx.1) y (h.ok.1.mem_syndrome_of_stab hy.1) hxy
  · obtain ⟨x, hx, rfl⟩ := Finset.mem_image.1 he
    have := (hones_mem x).1 hx
    exact ⟨x, this.1, this.2, f5 x this.1⟩

/-- If only erased qubits are flipped and no boundary qubit is erased then no cluster is odd, so nothing is grown. -/
theorem no_odd (hd : ∀ i, boundsOf code.ec code.boundaries i = .periodic → 3 ≤ code.dims i) (hE : OnErased code w bits)
    (hB : ∀ x ∈ code.boundPoints, w x ≠ -1) (cl : CompLib SNode) (io : IterOrder SNode) {s : St} {odd : List SNode}
    (hs : initState cl io (II) = some (s, odd)) : odd = [] ∧ s.status = supportInit (II).E := by
  have hI := wf_code h bk sp w bits
  obtain ⟨f, f1, f2, f3, f4, f5, f6, f7⟩ := edge_map h bk sp w bits hd
  obtain ⟨Er, hEr, hEe⟩ := explains_code h bk sp w bits hd
  obtain ⟨s1, odd1, rep, dep, e1, e2, H, hrep, hpar, -⟩ := initState_exact cl io hI
  rw [hs] at e1
  simp only [Option.some.injEq, Prod.mk.injEq] at e1
  obtain ⟨rfl, rfl⟩ := e1
  refine ⟨?_, e2⟩
  rw [List.eq_nil_iff_forall_not_mem]
  intro c hc
  have hcn := H.odd_mem c hc
  have hp := hpar c hc
  have hg : ∀ k, k ∈ grownL s.status ↔ k ∈ erasureEdges (II) := by rw [e2]; exact supportInit_grown hI
  have hodd := H.heap.parity c hcn
  rw [hrep c hc, hp] at hodd
  have ho : OddCls (erasureNodes (II)) (rootParity (II)) rep c := by
    refine ⟨by rw [hrep c hc]; simpa using hodd.symm, fun v hv hvc hvn => ?_⟩
    obtain ⟨p, rfl⟩ := (rootParity_none (erasureNodes_sub hI hv).2).1 hvn
    have hcv := (H.conn _ hv c hcn).1 hvc
    rcases Relation.ReflTransGen.cases_head hcv with hcc | ⟨b, hb, -⟩
    · subst hcc
      have h0 : ((erasureNodes (II)).countP fun u => decide (rep u = rep (SNode.pt p) ∧ rootParity (II) u = some true)) = 0 := by
        rw [List.countP_eq_zero]
        intro u hu hu'
        rw [decide_eq_true_eq] at hu'
        have hconn := (H.conn _ hcn u hu).1 hu'.1.symm
        rcases Relation.ReflTransGen.cases_head hconn with he | ⟨b, hb, -⟩
        · rw [← he] at hu'
          simp [rootParity] at hu'
        · rw [hg, erasureEdges, List.mem_filter] at hb
          obtain ⟨x, hx, he⟩ := (f4 _).1 hb.1
          obtain ⟨rfl, hbp⟩ := f7 x hx p (by rw [← he]; simp)
          have := f5 x hx
          rw [← he, hb.2] at this
          exact hB x hbp (by simpa using this.symm)
      rw [hrep _ hc] at h0
      rw [h0] at hodd
      simp at hodd
    · rw [hg, erasureEdges, List.mem_filter] at hb
      obtain ⟨x, hx, he⟩ := (f4 _).1 hb.1
      obtain ⟨rfl, hbp⟩ := f7 x hx p (by rw [← he]; simp)
      have := f5 x hx
      rw [← he, hb.2] at this
      exact hB x hbp (by simpa using this.symm)
  obtain ⟨p, q, h1, -⟩ := H.leaves hI hEr (fun k hk => (hg k).2 hk) hcn ho
  rw [Finset.mem_filter] at h1
  obtain ⟨x, hx, hb, he⟩ := hEe _ h1.1
  rw [h1.2, hE x hx hb] at he
  simp at he

end

/-- C97.  If only erased qubits are flipped and no boundary qubit is erased (always so on codes without open boundaries), then the
recovery of Union-Find consists of erased qubits and gives every stabilizer its parity. -/
theorem C97_recovery {code : Code} (h : IsCode code)
    (hd : ∀ i, boundsOf code.ec code.boundaries i = .periodic → 3 ≤ code.dims i) (bk : Backend) (sp : SetPop)
    (cl : CompLib SNode) (sl : SpanLib SNode (Option V)) (io : IterOrder SNode) (w : V → ℚ) (bits : V → Bool) (fuel : ℕ)
    (hf : 2 * (stabGraph bk sp code).edges.length + 1 ≤ fuel) (hE : OnErased code w bits)
    (hB : ∀ x ∈ code.boundPoints, w x ≠ -1) :
    ∃ R : List V, ufDecoder cl sl io fuel (stabGraph bk sp code) w bits = some (R.map some) ∧ R.Nodup ∧
      (∀ x ∈ R, x ∈ code.syndrome ∧ w x = -1) ∧ ∀ s ∈ code.stabs, parity (fun x => decide (x ∈ R)) s = parity bits s := by
  have hI := wf_code h bk sp w bits
  have hle := realE_le (bk := bk) (sp := sp) (code := code) (w := w) (bits := bits)
  obtain ⟨R, s, odd, s', e1, e2, her, h1, h2, h3, h4⟩ := uf_exact h bk sp w bits cl sl io fuel (by omega)
  obtain ⟨f, f1, f2, f3, f4, f5, f6, f7⟩ := edge_map h bk sp w bits hd
  obtain ⟨rfl, hst⟩ := no_odd h bk sp w bits hd hE hB cl io e1
  have hs' : s' = s := by
    cases fuel <;> simpa [unionFind] using e2.symm
  subst hs'
  refine ⟨R, h1, h2, fun x hx => ?_, fun s hs => ?_⟩
  · obtain ⟨e, he, hc⟩ := h3 x hx
    obtain ⟨hx', rfl⟩ := f2 e x hc
    refine ⟨hx', ?_⟩
    rw [hst, supportInit_grown hI, erasureEdges, List.mem_filter, f5 x hx'] at he
    simpa using he.2
  · obtain ⟨k, hk, rfl⟩ := List.getElem_of_mem hs
    have := h4 k hk
    rwa [List.getD_eq_getElem _ _ hk] at this

theorem uf_congr {code : Code} (h : IsCode code) (bk : Backend) (sp : SetPop) (cl : CompLib SNode) (sl : SpanLib SNode (Option V))
    (io : IterOrder SNode) (w : V → ℚ) (fuel : ℕ) {b b₂ : V → Bool} (hb : ∀ s ∈ code.stabs, parity b s = parity b₂ s) :
    ufDecoder cl sl io fuel (stabGraph bk sp code) w b = ufDecoder cl sl io fuel (stabGraph bk sp code) w b₂ := by
  have hc : ∀ k, parity b ((stabGraph bk sp code).coords k) = parity b₂ ((stabGraph bk sp code).coords k) := by
    intro k
    unfold StabGraph.coords
    rw [(h.stabGraph bk sp).2.1]
    by_cases hk : k < code.stabs.length
    · rw [List.getD_eq_getElem _ _ hk]; exact hb _ (List.getElem_mem _)
    · rw [List.getD_eq_default _ _ (by omega)]; rfl
  unfold ufDecoder ufInput
  simp only [hc]

/-- What the recovery flips depends on the recovery set alone. -/
theorem recovery_shift (nodes : List V) (qs : List (Option V)) : ∀ {b b' : V → Bool}, recovery nodes qs b = some b' → ∀ c : V → Bool,
    recovery nodes qs c = some fun x => xor (c x) (xor (b x) (b' x)) := by
  unfold recovery
  induction qs with
  | nil =>
    intro b b' hb c
    simp only [List.foldlM_nil, Option.pure_def, Option.some.injEq] at hb ⊢
    subst hb
    funext x
    simp
  | cons q qs ih =>
    intro b b' hb c
    rw [List.foldlM_cons] at hb ⊢
    cases q with
    | none => simp at hb
    | some q =>
      by_cases hq : q ∈ nodes
      · simp only [if_pos hq, Option.bind_eq_bind, Option.bind_some] at hb ⊢
        rw [ih hb (SurfaceCode.flip c q)]
        congr 1
        funext x
        unfold SurfaceCode.flip
        by_cases hx : x = q
        · subst hx
          simp
        · simp [hx]
      · simp [hq] at hb

/-- A step of the proofs below: `correct` leaves a pattern of erased qubits with trivial syndrome. -/
theorem uf_erased {code : Code} (h : IsCode code)
    (hd : ∀ i, boundsOf code.ec code.boundaries i = .periodic → 3 ≤ code.dims i) (bk : Backend) (sp : SetPop)
    (cl : CompLib SNode) (sl : SpanLib SNode (Option V)) (io : IterOrder SNode) (w : V → ℚ) (bits : V → Bool) (fuel : ℕ)
    (hf : 2 * (stabGraph bk sp code).edges.length + 1 ≤ fuel) (hE : OnErased code w bits)
    (hB : ∀ x ∈ code.boundPoints, w x ≠ -1) (sanity : Bool) :
    ∃ bits' ok, correct code (ufDecoder cl sl io fuel (stabGraph bk sp code) w) sanity bits = some (bits', ok) ∧
      trivialSyndrome code bits' ∧ OnErased code w bits' := by
  obtain ⟨R, h1, h2, h3, h4⟩ := C97_recovery h hd bk sp cl sl io w bits fuel hf hE hB
  have hrec := recovery_nodup (PyDict.keys code.graph.nodes) R (fun q hq => h.syndrome_node (h3 q hq).1) h2 bits
  refine ⟨fun x => xor (bits x) (decide (x ∈ R)), (planesToCheck code.ec code.boundaries).all fun i =>
    !sheetParity code (fun x => xor (bits x) (decide (x ∈ R))) i (lowF code.ec), ?_, fun s hs => ?_, fun x hx hb => ?_⟩
  · unfold correct
    rw [h1, Option.bind_eq_bind, Option.bind_some, hrec, Option.bind_eq_bind, Option.bind_some, check_eq h.ok.2]
    rfl
  · rw [parity_xor, h4 s hs, Bool.xor_self]
  · by_cases hxR : x ∈ R
    · exact (h3 x hxR).2
    · refine hE x hx ?_
      simpa [hxR] using hb

/-- C97.  Union-Find corrects every pattern of erased qubits if and only if no pattern of erased qubits is a logical operator: each one that
satisfies all stabilizers is noiseless. -/
theorem C97_iff {code : Code} (h : IsCode code)
    (hd : ∀ i, boundsOf code.ec code.boundaries i = .periodic → 3 ≤ code.dims i) (bk : Backend) (sp : SetPop)
    (cl : CompLib SNode) (sl : SpanLib SNode (Option V)) (io : IterOrder SNode) (w : V → ℚ) (fuel : ℕ)
    (hf : 2 * (stabGraph bk sp code).edges.length + 1 ≤ fuel) (hB : ∀ x ∈ code.boundPoints, w x ≠ -1) (sanity : Bool) :
    (∀ bits, OnErased code w bits →
        ∃ bits', correct code (ufDecoder cl sl io fuel (stabGraph bk sp code) w) sanity bits = some (bits', true)) ↔
      ∀ L, OnErased code w L → trivialSyndrome code L → Noiseless code L := by
  constructor
  · intro hall L hL ht
    obtain ⟨bits', hc⟩ := hall L hL
    unfold correct at hc
    rw [uf_trivial h bk sp cl sl io w hf ht, Option.bind_eq_bind, Option.bind_some, recovery_syndrome h List.nodup_nil (by simp),
      Option.bind_eq_bind, Option.bind_some] at hc
    simp only [List.not_mem_nil, decide_false, Bool.xor_false, Option.bind_eq_bind, Option.bind_eq_some_iff, Option.pure_def,
      Option.some.injEq, Prod.mk.injEq] at hc
    obtain ⟨k, hk, -, rfl⟩ := hc
    exact (C57_verdict h L sanity).1 ⟨ht, hk⟩
  · intro hL bits hE
    obtain ⟨b', ok, hc, ht, hb'⟩ := uf_erased h hd bk sp cl sl io w bits fuel hf hE hB sanity
    have := (C57_correct h _ hc ht).2 (hL b' hb' ht)
    exact ⟨b', by rw [hc, this]⟩

/-- The patterns of erased qubits that `correct` accepts. -/
noncomputable def accepted (code : Code) (w : V → ℚ) (decoder : (V → Bool) → Option (List (Option V))) (sanity : Bool) : Finset (Finset V) :=
  open Classical in (code.syndrome.toFinset.filter fun x => w x = -1).powerset.filter fun T =>
    ∃ bits', correct code decoder sanity (fun x => decide (x ∈ T)) = some (bits', true)

/-- C97.  Union-Find is a maximum-likelihood decoder for erasures: no decoder that sees only the stabilizer parities corrects more patterns
of erased qubits. -/
theorem C97_optimal {code : Code} (h : IsCode code)
    (hd : ∀ i, boundsOf code.ec code.boundaries i = .periodic → 3 ≤ code.dims i) (bk : Backend) (sp : SetPop)
    (cl : CompLib SNode) (sl : SpanLib SNode (Option V)) (io : IterOrder SNode) (w : V → ℚ) (fuel : ℕ)
    (hf : 2 * (stabGraph bk sp code).edges.length + 1 ≤ fuel) (hB : ∀ x ∈ code.boundPoints, w x ≠ -1) (sanity : Bool)
    (decoder : (V → Bool) → Option (List (Option V)))
    (hD : ∀ b b₂ : V → Bool, (∀ s ∈ code.stabs, parity b s = parity b₂ s) → decoder b = decoder b₂) :
    (accepted code w decoder sanity).card ≤
      (accepted code w (ufDecoder cl sl io fuel (stabGraph bk sp code) w) sanity).card := by
  classical
  set U := ufDecoder cl sl io fuel (stabGraph bk sp code) w with hU
  set Pt := fun T : Finset V => fun x : V => decide (x ∈ T) with hPt
  set nodes := PyDict.keys code.graph.nodes with hnodes
  have hacc : ∀ dec T, T ∈ accepted code w dec sanity ↔ (T ⊆ code.syndrome.toFinset.filter fun x => w x = -1) ∧
      ∃ qs b', dec (Pt T) = some qs ∧ recovery nodes qs (Pt T) = some b' ∧
        ∀ i ∈ planesToCheck code.ec code.boundaries, sheetParity code b' i (lowF code.ec) = false := by
    intro dec T
    unfold accepted
    rw [Finset.mem_filter, Finset.mem_powerset]
    refine and_congr_right fun _ => ?_
    unfold correct
    constructor
    · rintro ⟨b', hb⟩
      simp only [Option.bind_eq_bind, Option.bind_eq_some_iff, Option.pure_def, Option.some.injEq, Prod.mk.injEq] at hb
      obtain ⟨qs, h1, b, h2, k, h3, rfl, rfl⟩ := hb
      rw [check_eq h.ok.2, Option.some.injEq, List.all_eq_true] at h3
      exact ⟨qs, b, h1, h2, fun i hi => by simpa using h3 i hi⟩
    · rintro ⟨qs, b', h1, h2, h3⟩
      refine ⟨b', ?_⟩
      have h1' : dec (fun x => decide (x ∈ T)) = some qs := h1
      have h2' : recovery (PyDict.keys code.graph.nodes) qs (fun x => decide (x ∈ T)) = some b' := h2
      rw [h1', Option.bind_eq_bind, Option.bind_some, h2', Option.bind_eq_bind, Option.bind_some, check_eq h.ok.2]
      have : ((planesToCheck code.ec code.boundaries).all fun i => !sheetParity code b' i (lowF code.ec)) = true := by
        rw [List.all_eq_true]
        intro i hi
        rw [h3 i hi]; rfl
      rw [this]
      rfl
  have hsub : ∀ T : Finset V, (T ⊆ code.syndrome.toFinset.filter fun x => w x = -1) → OnErased code w (Pt T) := by
    intro T hT x hx hb
    exact (Finset.mem_filter.1 (hT (by simpa [hPt] using hb))).2
  -- the recovery set of Union-Find, as a set of erased qubits
  have hR : ∀ T : Finset V, ∃ R : Finset V, (T ⊆ code.syndrome.toFinset.filter fun x => w x = -1) →
      (R ⊆ code.syndrome.toFinset.filter fun x => w x = -1) ∧ (∀ s ∈ code.stabs, parity (Pt R) s = parity (Pt T) s) ∧
      ∃ L : List V, U (Pt T) = some (L.map some) ∧ L.Nodup ∧ (∀ x, x ∈ L ↔ x ∈ R) := by
    intro T
    by_cases hT : T ⊆ code.syndrome.toFinset.filter fun x => w x = -1
    · obtain ⟨L, h1, h2, h3, h4⟩ := C97_recovery h hd bk sp cl sl io w (Pt T) fuel hf (hsub T hT) hB
      refine ⟨L.toFinset, fun _ => ⟨fun x hx => ?_, fun s hs => ?_, L, h1, h2, fun x => by simp⟩⟩
      · have := h3 x (List.mem_toFinset.1 hx)
        simp [this.1, this.2]
      · rw [← h4 s hs]
        simp [hPt]
    · exact ⟨∅, fun h => absurd h hT⟩
  choose R hR using hR
  -- a representative of the accepted patterns with a syndrome
  set A := accepted code w decoder sanity with hA
  have hrep : ∃ c : ((V → Bool) → Prop) → Finset V, ∀ (S : (V → Bool) → Prop), (∃ T ∈ A, S (Pt T)) → c S ∈ A ∧ S (Pt (c S)) := by
    refine ⟨fun S => if hS : ∃ T ∈ A, S (Pt T) then hS.choose else ∅, fun S hS => ?_⟩
    simp only [dif_pos hS]
    exact hS.choose_spec
  obtain ⟨c, hc⟩ := hrep
  set cls : Finset V → (V → Bool) → Prop := fun T b => ∀ s ∈ code.stabs, parity b s = parity (Pt T) s with hcls
  have hcT : ∀ T ∈ A, c (cls T) ∈ A ∧ cls T (Pt (c (cls T))) := fun T hT => hc _ ⟨T, hT, fun _ _ => rfl⟩
  have hpx : ∀ P Q : Finset V, Pt (symmDiff P Q) = fun x => xor (Pt P x) (Pt Q x) := by
    intro P Q
    funext x
    simp only [hPt, Finset.mem_symmDiff]
    by_cases h1 : x ∈ P <;> by_cases h2 : x ∈ Q <;> simp [h1, h2]
  set φ : Finset V → Finset V := fun T => symmDiff (R T) (symmDiff T (c (cls T))) with hφ
  have hφs : ∀ T ∈ A, ∀ s ∈ code.stabs, parity (Pt (φ T)) s = parity (Pt T) s := by
    intro T hT s hs
    have hTs := ((hacc _ _).1 hT).1
    rw [hφ]
    simp only
    rw [hpx, parity_xor, hpx, parity_xor, (hR T hTs).2.1 s hs, (hcT T hT).2 s hs, Bool.xor_self, Bool.xor_false]
  refine Finset.card_le_card_of_injOn φ (fun T hT => ?_) (fun T hT T₂ hT₂ he => ?_)
  · have hT : T ∈ A := hT
    obtain ⟨hTs, qs, b1, d1, r1, s1⟩ := (hacc _ _).1 hT
    obtain ⟨hC, hcc⟩ := hcT T hT
    obtain ⟨hCs, qs2, b2, d2, r2, s2⟩ := (hacc _ _).1 hC
    rw [hD _ _ hcc, d1] at d2
    obtain rfl := Option.some.inj d2
    have hRT := hR T hTs
    have hφE : φ T ⊆ code.syndrome.toFinset.filter fun x => w x = -1 := by
      intro x hx
      rw [hφ] at hx
      simp only [Finset.mem_symmDiff] at hx
      rcases hx with ⟨h1, -⟩ | ⟨⟨h1, -⟩ | ⟨h1, -⟩, -⟩
      · exact hRT.1 h1
      · exact hTs h1
      · exact hCs h1
    have hUφ : U (Pt (φ T)) = U (Pt T) := uf_congr h bk sp cl sl io w fuel (hφs T hT)
    obtain ⟨L, l1, l2, l3⟩ := hRT.2.2
    refine (hacc _ _).2 ⟨hφE, L.map some, _, by rw [hUφ, l1], recovery_nodup nodes L (fun q hq => h.syndrome_node (by
      have := hRT.1 ((l3 q).1 hq)
      simpa using (Finset.mem_filter.1 this).1)) l2 _, fun i hi => ?_⟩
    have hb2 := recovery_shift nodes qs r1 (Pt (c (cls T)))
    rw [r2, Option.some.injEq] at hb2
    have hsum : (fun x => xor (Pt (φ T) x) (decide (x ∈ L))) = fun x => xor (b1 x) (b2 x) := by
      funext x
      rw [hb2, hφ]
      simp only
      rw [hpx, hpx]
      have : decide (x ∈ L) = Pt (R T) x := by simp [hPt, l3 x]
      rw [this]
      beta_reduce
      cases Pt (R T) x <;> cases Pt T x <;> cases Pt (c (cls T)) x <;> cases b1 x <;> rfl
    rw [hsum, sheetParity_xor, s1 i hi, s2 i hi]
    rfl
  · have hT : T ∈ A := hT
    have hT₂ : T₂ ∈ A := hT₂
    have hcl : cls T = cls T₂ := by
      funext b
      have : ∀ s ∈ code.stabs, parity (Pt T) s = parity (Pt T₂) s := fun s hs => by
        rw [← hφs T hT s hs, ← hφs T₂ hT₂ s hs, he]
      apply propext
      constructor
      · exact fun hb s hs => by rw [hb s hs, this s hs]
      · exact fun hb s hs => by rw [hb s hs, this s hs]
    have hRR : R T = R T₂ := by
      obtain ⟨L, l1, -, l3⟩ := (hR T ((hacc _ _).1 hT).1).2.2
      obtain ⟨L₂, m1, -, m3⟩ := (hR T₂ ((hacc _ _).1 hT₂).1).2.2
      have hUU : U (Pt T) = U (Pt T₂) := uf_congr h bk sp cl sl io w fuel fun s hs => by
        rw [← hφs T hT s hs, ← hφs T₂ hT₂ s hs, he]
      rw [l1, m1, Option.some.injEq] at hUU
      have : L = L₂ := List.map_injective_iff.2 (Option.some_injective _) hUU
      ext x
      rw [← l3, ← m3, this]
    have he' : symmDiff (R T) (symmDiff T (c (cls T))) = symmDiff (R T₂) (symmDiff T₂ (c (cls T₂))) := he
    rw [← hcl, ← hRR] at he'
    exact symmDiff_left_injective _ (symmDiff_right_injective _ he')

/-- C97.  Any number of erasures: if in every checked direction some plane has no erased qubit, every pattern of erased qubits is
corrected. -/
theorem C97_planes {code : Code} (h : IsCode code)
    (hd : ∀ i, boundsOf code.ec code.boundaries i = .periodic → 3 ≤ code.dims i) (bk : Backend) (sp : SetPop)
    (cl : CompLib SNode) (sl : SpanLib SNode (Option V)) (io : IterOrder SNode) (w : V → ℚ) (bits : V → Bool) (fuel : ℕ)
    (hf : 2 * (stabGraph bk sp code).edges.length + 1 ≤ fuel) (hE : OnErased code w bits)
    (hB : ∀ x ∈ code.boundPoints, w x ≠ -1)
    (hp : ∀ i ∈ planesToCheck code.ec code.boundaries, ∃ k < code.dims i, ∀ x ∈ code.syndrome, x i = lowF code.ec + 2 * (k : ℤ) → w x ≠ -1)
    (sanity : Bool) :
    ∃ bits', correct code (ufDecoder cl sl io fuel (stabGraph bk sp code) w) sanity bits = some (bits', true) := by
  refine (C97_iff h hd bk sp cl sl io w fuel hf hB sanity).2 (fun L hL ht => ?_) bits hE
  refine (C57_verdict h L sanity).1 ⟨ht, ?_⟩
  rw [check_eq h.ok.2, Option.some.injEq, List.all_eq_true]
  intro i hi
  by_contra hodd
  obtain ⟨k, hk, hw⟩ := hp i hi
  obtain ⟨x, hx, hxi, hb⟩ := odd_all h ht hi (by simpa using hodd) k hk
  exact hw x hx hxi (hL x hx hb)

/-- C97 for `correct`: erased qubits are those with two or more p-squeezed neighbours. -/
theorem C97_total {code : Code} (h : IsCode code)
    (hd : ∀ i, boundsOf code.ec code.boundaries i = .periodic → 3 ≤ code.dims i) (X : Libs) {o : Opts}
    (ho : o.method = "uniform") (a : Attrs) (hB : ∀ x ∈ code.boundPoints, squeezedNeighbors code a x < 2)
    (weights : V → Option ℝ) (sanity : Bool) :
    (∀ bits, (∀ x ∈ code.syndrome, bits x = true → 2 ≤ squeezedNeighbors code a x) →
        ∃ bits' w, correctAll X code "UF" o a weights sanity bits = some (bits', w, true)) ↔
      ∀ L, (∀ x ∈ code.syndrome, L x = true → 2 ≤ squeezedNeighbors code a x) → trivialSyndrome code L → Noiseless code L := by
  obtain ⟨w, w', hw, he⟩ := uf_correctAll h X ho a weights sanity
  have hm : ∀ x ∈ code.syndrome, (w' x = -1 ↔ 2 ≤ squeezedNeighbors code a x) := by
    intro x hx
    rw [hw x hx]
    split_ifs with hc
    · simp [hc]
    · simp only [hc, iff_false]; norm_num
  have hon : ∀ b, OnErased code w' b ↔ ∀ x ∈ code.syndrome, b x = true → 2 ≤ squeezedNeighbors code a x := fun b =>
    forall₂_congr fun x hx => by rw [hm x hx]
  have hB' : ∀ x ∈ code.boundPoints, w' x ≠ -1 := fun x hx hc => by
    have := (hm x ((h.ok.1.mem_bound x).1 hx).1).1 hc
    have := hB x hx
    omega
  have := C97_iff h hd X.bk X.sp X.comps X.span X.iter w' _ le_rfl hB' sanity
  simp only [hon] at this
  rw [← this]
  refine forall₂_congr fun b _ => ?_
  rw [he b]
  constructor
  · rintro ⟨b', w₂, hb⟩
    rw [Option.map_eq_some_iff] at hb
    obtain ⟨⟨b'', ok⟩, h1, h2⟩ := hb
    simp only [Prod.mk.injEq] at h2
    exact ⟨b'', by rw [h1, h2.2.2]⟩
  · rintro ⟨b', hb⟩
    exact ⟨b', w, by rw [hb]; rfl⟩

/-! ### The hypotheses can be met -/

-- all qubits of a toric code of size four are erased except those of two planes
example (X : Libs) (bits : V → Bool) (hb : ∀ x, bits x = true → x 0 ≠ 0 ∧ x 1 ≠ 2) : ∃ code, IsCode code ∧ code.boundaries = .toric ∧
    ∃ bits', correct code (ufDecoder X.comps X.span X.iter (2 * (stabGraph X.bk X.sp code).edges.length + 1) (stabGraph X.bk X.sp code)
      fun z => if z 0 ≠ 0 ∧ z 1 ≠ 2 then -1 else 2) false bits = some (bits', true) := by
  obtain ⟨code, hc⟩ := C54_constructor_total idOrder .primal .toric (dims := fun _ => 4) (by simp) none
  obtain ⟨hc, hd, hec, hb'⟩ := hc
  have h : IsCode code := ⟨idOrder, .primal, .toric, _, none, by simp, hc⟩
  refine ⟨code, h, hb', C97_planes h (by rw [hb', hd]; simp) _ _ _ _ _ _ _ _ le_rfl (fun x _ hx => ?_) (fun x hx => ?_) (fun i hi => ?_) _⟩
  · rw [if_pos (hb x hx)]
  · rw [C27_periodic h (by rw [hb']; decide)] at hx
    cases hx
  · rw [hb'] at hi
    rw [hd, hec]
    simp only [planesToCheck, List.mem_cons, List.not_mem_nil, or_false] at hi
    rcases hi with rfl | rfl
    · refine ⟨0, by norm_num, fun x _ hx => ?_⟩
      rw [if_neg (by simp [hx, lowF])]
      norm_num
    · refine ⟨1, by norm_num, fun x _ hx => ?_⟩
      rw [if_neg (by simp [hx, lowF])]
      norm_num

end Flamingpy.Trial
