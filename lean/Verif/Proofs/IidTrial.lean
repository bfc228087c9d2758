import Verif.Props.UfDistance

/-! # The outcome of each trial of a simulation of independent errors -/

namespace Flamingpy.Trial

open Flamingpy Flamingpy.SurfaceCode Flamingpy.UnionFind Flamingpy.Weights Flamingpy.Sim

/-- `correct` answers `False` when exactly the syndrome qubits in `S` are flipped. -/
def Fails (X : Libs) (code : Code) (name : String) (o : Opts) (a : Weights.Attrs) (S : Finset V) : Prop :=
  ∃ bits' w, correctAll X code name o a (fun _ => none) false (fun x => decide (x ∈ S)) = some (bits', w, false)

/-- The verdict depends on the bits and the weights of the syndrome qubits only. -/
theorem verdict_iff_w {code : Code} (h : IsCode code) (X : Libs) {name : String} {o : Opts} {a a' : Weights.Attrs}
    (hva : Valid code name o a) (hva' : Valid code name o a') {weights : V → Option ℝ}
    (hwts : ∀ w1 w2, assignNodes code name o a weights = .ok w1 → assignNodes code name o a' (fun _ => none) = .ok w2 →
      ∀ x ∈ code.syndrome, w1 x = w2 x) {bits : V → Bool} {S : Finset V}
    (hb : ∀ x ∈ code.syndrome, bits x = decide (x ∈ S)) {b : V → Bool} {w : V → Option ℝ} {ok : Bool}
    (hc : correctAll X code name o a weights false bits = some (b, w, ok)) :
    ok = false ↔ Fails X code name o a' S := by
  obtain ⟨w1, e1, s1, -⟩ := weights_ok h hva weights
  obtain ⟨w2, e2, s2, -⟩ := weights_ok h hva' (fun _ => none)
  have hww := hwts w1 w2 e1 e2
  have hdec : ∀ c, decoderFunc X code name (fun q => X.float.fl ((w1 q).getD 0)) c =
      decoderFunc X code name (fun q => X.float.fl ((w2 q).getD 0)) c := by
    intro c
    have := weightedEdges_congr h X.bk X.sp (w := fun q => X.float.fl ((w1 q).getD 0))
      (w' := fun q => X.float.fl ((w2 q).getD 0)) (fun x hx => by rw [hww x hx])
    unfold decoderFunc mwpmDecoder matchGraph ufDecoder ufInput
    simp only [this]
  -- the bits
  have hpz : ∀ l : List V, parity (fun _ => false) l = false := by
    intro l
    unfold parity
    induction l with
    | nil => rfl
    | cons a l ih => simpa using ih
  obtain ⟨c1, c2, w3, ok', h1, h2, -⟩ := C58_class h X hva' (fun _ => none) false (fun x => decide (x ∈ S)) (fun _ => false)
    (bits₂ := bits) (fun x hx => by rw [hpz, Bool.xor_false]; exact hb x hx)
  have h2' : ok = ok' := by
    rw [correctAll_of e2 s2] at h2
    rw [correctAll_of e1 s1, correct_congr (d' := decoderFunc X code name (fun q => X.float.fl ((w2 q).getD 0))) (hdec _)]
      at hc
    cases hr : correct code (decoderFunc X code name fun q => X.float.fl ((w2 q).getD 0)) false bits with
    | none => rw [hr] at hc; cases hc
    | some r =>
      rw [hr] at hc h2
      simp only [Option.map_some, Option.some.injEq, Prod.mk.injEq] at hc h2
      rw [← hc.2.2, ← h2.2.2]
  subst h2'
  unfold Fails
  constructor
  · rintro rfl; exact ⟨_, _, h1⟩
  · rintro ⟨_, _, h3⟩
    rw [h1] at h3
    simp only [Option.some.injEq, Prod.mk.injEq] at h3
    exact h3.2.2

/-- The verdict depends on the bits of the syndrome qubits only, and neither on earlier weights nor on states other than the
numbers of squeezed neighbours. -/
theorem verdict_iff' {code : Code} (h : IsCode code) (X : Libs) {name : String} (hn : name = "MWPM" ∨ name = "UF")
    {o : Opts} (ho : o.method = "uniform") {a a' : Weights.Attrs}
    (hsq : ∀ x ∈ code.syndrome, squeezedNeighbors code a x = squeezedNeighbors code a' x) {weights : V → Option ℝ} {bits : V → Bool} {S : Finset V}
    (hb : ∀ x ∈ code.syndrome, bits x = decide (x ∈ S)) {b : V → Bool} {w : V → Option ℝ} {ok : Bool}
    (hc : correctAll X code name o a weights false bits = some (b, w, ok)) :
    ok = false ↔ Fails X code name o a' S := by
  have hv : ∀ a, Valid code name o a := fun a => by
    rcases hn with rfl | rfl
    · exact Or.inl ⟨rfl, Or.inl ho⟩
    · exact Or.inr ⟨rfl, ho⟩
  refine verdict_iff_w h X (hv a) (hv a') (fun w1 w2 e1 e2 x hx => ?_) hb hc
  obtain ⟨v1, f1, -, -, m1, u1⟩ := weights_ok h (hv a) weights
  obtain ⟨v2, f2, -, -, m2, u2⟩ := weights_ok h (hv a') (fun _ => none)
  obtain rfl := Except.ok.inj (e1.symm.trans f1)
  obtain rfl := Except.ok.inj (e2.symm.trans f2)
  rcases hn with rfl | rfl
  · rw [m1 ho rfl x hx, m2 ho rfl x hx]
  · rw [u1 rfl x hx, u2 rfl x hx, hsq x hx]

/-- The same for unchanged states. -/
theorem verdict_iff {code : Code} (h : IsCode code) (X : Libs) {name : String} (hn : name = "MWPM" ∨ name = "UF")
    {o : Opts} (ho : o.method = "uniform") {a : Weights.Attrs} {weights : V → Option ℝ} {bits : V → Bool} {S : Finset V}
    (hb : ∀ x ∈ code.syndrome, bits x = decide (x ∈ S)) {b : V → Bool} {w : V → Option ℝ} {ok : Bool}
    (hc : correctAll X code name o a weights false bits = some (b, w, ok)) :
    ok = false ↔ Fails X code name o a S :=
  verdict_iff' h X hn ho (fun _ _ => rfl) hb hc

open Classical in
/-- The syndrome qubits hit if `u` are the next random numbers. -/
noncomputable def hits (code : Code) (p : ℝ) (u : ℕ → ℝ) : Finset V :=
  code.syndrome.toFinset.filter fun x => u ((PyDict.keys code.graph.nodes).idxOf x) < p

theorem iid_outcome {code : Code} (h : IsCode code) (X : Libs) {name : String} (hn : name = "MWPM" ∨ name = "UF")
    {o : Opts} (ho : o.method = "uniform") (p : ℝ) (A : Noise.Attrs V) (u : ℕ → ℝ) (w : V → Option ℝ) (k : ℕ) :
    ∃ b, outcome (ecTrial X code name o (iidModel code p)) k ((A, u), w) = some b ∧
      (b = false ↔ Fails X code name o ⟨A.state, A.homP, fun _ => none⟩
        (hits code p fun i => u (k * (PyDict.keys code.graph.nodes).length + i))) := by
  set n := (PyDict.keys code.graph.nodes).length with hnn
  have hnd := h.ok.1.nodesNd
  have step : ∀ s : (Noise.Attrs V × (ℕ → ℝ)) × (V → Option ℝ), s.1.1.state = A.state → s.1.1.homP = A.homP →
      ∃ ok s', ecTrial X code name o (iidModel code p) s = some (ok, s') ∧ s'.1.1.state = A.state ∧
        s'.1.1.homP = A.homP ∧ (s'.1.2 = fun i => s.1.2 (n + i)) ∧
        (ok = false ↔ Fails X code name o ⟨A.state, A.homP, fun _ => none⟩ (hits code p s.1.2)) := by
    intro s hst hho
    obtain ⟨-, -, c3, -, c5⟩ := Noise.C44_apply p s.1.2 (PyDict.keys code.graph.nodes) hnd s.1.1
    have hv : ∀ a, Valid code name o a := fun a => by
      rcases hn with rfl | rfl
      · exact Or.inl ⟨rfl, Or.inl ho⟩
      · exact Or.inr ⟨rfl, ho⟩
    obtain ⟨b, w, ok, h1, h2, -⟩ := ecTrial_of (X := X) h (name := name) (o := o) (N := iidModel code p) (s := s) rfl (hv _)
    refine ⟨ok, _, h1, c3.trans hst, c5.trans hho, rfl, ?_⟩
    have ha : (iidModel code p).attrs (Noise.iidApply p s.1.2 (PyDict.keys code.graph.nodes) s.1.1,
        fun i => s.1.2 (n + i)) = ⟨A.state, A.homP, fun _ => none⟩ := by
      show (⟨_, _, _⟩ : Weights.Attrs) = _
      rw [c3, c5, hst, hho]
    rw [ha] at h2
    refine verdict_iff h X hn ho (fun x hx => ?_) h2
    have hx' := h.syndrome_node hx
    have hk := List.idxOf_lt_length_of_mem hx'
    have hb := (Noise.C44_apply p s.1.2 (PyDict.keys code.graph.nodes) hnd s.1.1).1 _ hk
    rw [List.getElem_idxOf] at hb
    change decide ((Noise.iidApply p s.1.2 (PyDict.keys code.graph.nodes) s.1.1).bit x = some 1) = _
    rw [hb, Bool.eq_iff_iff]
    simp [hits, hx]
  have haft : ∀ k, ∃ s', after (ecTrial X code name o (iidModel code p)) k ((A, u), w) = some s' ∧
      s'.1.1.state = A.state ∧ s'.1.1.homP = A.homP ∧ s'.1.2 = fun i => u (k * n + i) := by
    intro k
    induction k with
    | zero => exact ⟨_, rfl, rfl, rfl, by simp⟩
    | succ k ih =>
      obtain ⟨s1, e1, a1, b1, c1⟩ := ih
      obtain ⟨ok, s2, e2, a2, b2, c2, -⟩ := step s1 a1 b1
      refine ⟨s2, by rw [after, e1, Option.bind_some, e2]; rfl, a2, b2, ?_⟩
      rw [c2, c1]
      funext i
      simp only
      congr 1
      ring
  obtain ⟨s1, e1, a1, b1, c1⟩ := haft k
  obtain ⟨ok, s2, e2, -, -, -, h3⟩ := step s1 a1 b1
  refine ⟨ok, by rw [outcome, e1, Option.bind_some, e2]; rfl, ?_⟩
  rw [h3, c1]

open Classical in
/-- The number of errors of a simulation as a function of the random numbers. -/
theorem iid_errors {code : Code} (h : IsCode code) (X : Libs) {name : String} (hn : name = "MWPM" ∨ name = "UF")
    {o : Opts} (ho : o.method = "uniform") (p : ℝ) (A : Noise.Attrs V) (u : ℕ → ℕ → ℝ) (w : V → Option ℝ) (trials : ℕ)
    {size : ℕ} (hs : 0 < size) :
    ∃ err, monteCarlo (ecTrial X code name o (iidModel code p)) trials size (fun r => ((A, u r), w)) = some err ∧
      err 0 = ((Finset.univ.filter fun t : Fin trials => Fails X code name o ⟨A.state, A.homP, fun _ => none⟩
        (hits code p fun i => u (t % size) (t / size * (PyDict.keys code.graph.nodes).length + i))).card : ℤ) := by
  obtain ⟨err, e1, -⟩ := C59_iid h X hn ho p trials hs (fun r => ((A, u r), w))
  refine ⟨err, e1, ?_⟩
  obtain ⟨-, e2, -⟩ := C49_errors _ trials size hs _ err e1
  rw [e2, Nat.cast_inj]
  rw [Finset.card_filter, ← Finset.sum_range fun t => if Fails X code name o ⟨A.state, A.homP, fun _ => none⟩
    (hits code p fun i => u (t % size) (t / size * (PyDict.keys code.graph.nodes).length + i)) then 1 else 0,
    ← Finset.card_filter, List.countP_eq_length_filter]
  have : ((Finset.range trials).filter fun t => Fails X code name o ⟨A.state, A.homP, fun _ => none⟩
      (hits code p fun i => u (t % size) (t / size * (PyDict.keys code.graph.nodes).length + i))) =
      ((List.range trials).filter fun i => decide (outcome (ecTrial X code name o (iidModel code p)) (i / size)
        ((A, u (i % size)), w) = some false)).toFinset := by
    ext t
    simp only [Finset.mem_filter, Finset.mem_range, List.mem_toFinset, List.mem_filter, List.mem_range, decide_eq_true_eq]
    refine and_congr_right fun _ => ?_
    obtain ⟨b, h1, h2⟩ := iid_outcome h X hn ho p A (u (t % size)) w (t / size)
    rw [h1, ← h2]
    simp
  rw [this, List.toFinset_card_of_nodup (List.nodup_range.filter _)]

end Flamingpy.Trial
