import Verif.Props.Trial
import Verif.Props.MacroCode
import Verif.Props.Simulations

/-!
# C59: whole simulations, from noise to the number of errors
-/

namespace Flamingpy.Trial

open Flamingpy Flamingpy.SurfaceCode Flamingpy.UnionFind Flamingpy.Weights Flamingpy.Sim

/-! ### Monte Carlo runs with an invariant -/

theorem after_inv {S : Type} {trial : S → Option (Bool × S)} {Inv : S → Prop} {good : Bool → Prop}
    (h : ∀ s, Inv s → ∃ b s', trial s = some (b, s') ∧ good b ∧ Inv s') (k : ℕ) (s : S) (hs : Inv s) :
    ∃ s', after trial k s = some s' ∧ Inv s' := by
  induction k with
  | zero => exact ⟨s, rfl, hs⟩
  | succ k ih =>
    obtain ⟨s1, e1, h1⟩ := ih
    obtain ⟨b, s2, e2, -, h2⟩ := h s1 h1
    exact ⟨s2, by rw [after, e1, Option.bind_some, e2]; rfl, h2⟩

theorem outcome_inv {S : Type} {trial : S → Option (Bool × S)} {Inv : S → Prop} {good : Bool → Prop}
    (h : ∀ s, Inv s → ∃ b s', trial s = some (b, s') ∧ good b ∧ Inv s') (k : ℕ) (s : S) (hs : Inv s) :
    ∃ b, outcome trial k s = some b ∧ good b := by
  obtain ⟨s1, e1, h1⟩ := after_inv h k s hs
  obtain ⟨b, s2, e2, hb, -⟩ := h s1 h1
  exact ⟨b, by rw [outcome, e1, Option.bind_some, e2]; rfl, hb⟩

theorem sim_inv {S : Type} {trial : S → Option (Bool × S)} {Inv : S → Prop} {good : Bool → Prop}
    (h : ∀ s, Inv s → ∃ b s', trial s = some (b, s') ∧ good b ∧ Inv s') (trials : ℕ) {size : ℕ} (hs : 0 < size)
    (s : ℕ → S) (hi : ∀ r < size, Inv (s r)) :
    ∃ err, monteCarlo trial trials size s = some err ∧ 0 ≤ err 0 ∧ err 0 ≤ trials ∧
      ((∀ b, good b → b = true) → err 0 = 0) := by
  have ho : ∀ i, ∃ b, outcome trial (i / size) (s (i % size)) = some b ∧ good b := fun i =>
    outcome_inv h _ _ (hi _ (Nat.mod_lt _ hs))
  cases hm : monteCarlo trial trials size s with
  | none =>
    obtain ⟨i, -, e⟩ := (C49_defined trial trials size hs s).1 hm
    obtain ⟨b, hb, -⟩ := ho i
    rw [e] at hb
    cases hb
  | some err =>
    obtain ⟨-, -, h0, h1, -⟩ := C49_errors trial trials size hs s err hm
    refine ⟨err, rfl, h0, h1, fun hg => ?_⟩
    rw [C49_zero trial trials size hs s err hm]
    intro i _
    obtain ⟨b, hb, hb'⟩ := ho i
    rw [hb, hg b hb']

theorem ecTrial_of {S : Type} {X : Libs} {code : Code} (h : IsCode code) {name : String} {o : Opts} {N : NoiseModel S}
    {s : S × (V → Option ℝ)} {s1 : S} (ha : N.apply s.1 = some s1) (hv : Valid code name o (N.attrs s1)) :
    ∃ bits' w ok, ecTrial X code name o N s = some (ok, N.put bits' s1, w) ∧
      correctAll X code name o (N.attrs s1) s.2 false (N.bits s1) = some (bits', w, ok) ∧
      ∀ vals : V → Bool, (∀ x ∈ code.syndrome, N.bits s1 x = parity vals (neighbors code x)) → ok = true := by
  obtain ⟨b, w, ok, h1, -, -, h4, h5⟩ := C58_correct h X hv s.2 false (N.bits s1)
  refine ⟨b, w, ok, ?_, h1, fun vals hvals => ?_⟩
  · unfold ecTrial
    rw [ha, Option.bind_eq_bind, Option.bind_some, h1]
    rfl
  · obtain ⟨w', h6⟩ := C58_noiseless h X hv s.2 false hvals
    rw [h1] at h6
    simp only [Option.some.injEq, Prod.mk.injEq] at h6
    exact h6.2.2

/-! ### Independent errors -/

/-- C59.  A simulation of independent errors with uniform weights never raises, with either decoder, for any number of
ranks; with error probability zero it counts no errors. -/
theorem C59_iid {code : Code} (h : IsCode code) (X : Libs) {name : String} (hn : name = "MWPM" ∨ name = "UF") {o : Opts}
    (ho : o.method = "uniform") (p : ℝ) (trials : ℕ) {size : ℕ} (hs : 0 < size)
    (s : ℕ → (Noise.Attrs V × (ℕ → ℝ)) × (V → Option ℝ)) :
    ∃ err, monteCarlo (ecTrial X code name o (iidModel code p)) trials size s = some err ∧ 0 ≤ err 0 ∧ err 0 ≤ trials ∧
      (p = 0 → (∀ r < size, ∀ i, 0 ≤ (s r).1.2 i) → err 0 = 0) := by
  have hv : ∀ a, Valid code name o a := fun a => by
    rcases hn with rfl | rfl
    · exact Or.inl ⟨rfl, Or.inl ho⟩
    · exact Or.inr ⟨rfl, ho⟩
  obtain ⟨err, e1, e2, e3, -⟩ := sim_inv (trial := ecTrial X code name o (iidModel code p)) (Inv := fun _ => True)
    (good := fun _ => True) (fun s _ => by
      obtain ⟨b, w, ok, h1, -⟩ := ecTrial_of (X := X) h (name := name) (o := o) (N := iidModel code p) (s := s) rfl (hv _)
      exact ⟨_, _, h1, trivial, trivial⟩) trials hs s (fun _ _ => trivial)
  refine ⟨err, e1, e2, e3, fun hp hu => ?_⟩
  obtain ⟨err', e1', -, -, e4⟩ := sim_inv (trial := ecTrial X code name o (iidModel code p))
    (Inv := fun s => ∀ i, 0 ≤ s.1.2 i) (good := fun b => b = true) (fun s hi => by
      obtain ⟨b, w, ok, h1, -, h3⟩ := ecTrial_of (X := X) h (name := name) (o := o) (N := iidModel code p) (s := s) rfl (hv _)
      refine ⟨_, _, h1, h3 (fun _ => false) fun x hx => ?_, fun i => hi _⟩
      have hnd := h.ok.1.nodesNd
      have hx' := h.syndrome_node hx
      obtain ⟨k, hk, rfl⟩ := List.getElem_of_mem hx'
      have hb := (Noise.C44_apply p s.1.2 (PyDict.keys code.graph.nodes) hnd s.1.1).1 k hk
      have : ¬ s.1.2 k < p := by rw [hp]; exact not_lt.2 (hi k)
      rw [if_neg this] at hb
      have hpz : parity (fun _ => false) (neighbors code (PyDict.keys code.graph.nodes)[k]) = false := by
        unfold parity
        generalize neighbors code _ = l
        induction l with
        | nil => rfl
        | cons a l ih => simpa using ih
      rw [hpz]
      change decide ((Noise.iidApply p s.1.2 (PyDict.keys code.graph.nodes) s.1.1).bit _ = some 1) = false
      rw [hb]
      simp) trials hs s hu
  rw [e1] at e1'
  rw [Option.some.inj e1']
  exact e4 fun b hb => hb

/-- The decoders use the weights of syndrome qubits only. -/
theorem weightedEdges_congr {code : Code} (h : IsCode code) (bk : Backend) (sp : SetPop) {w w' : V → ℚ}
    (hw : ∀ x ∈ code.syndrome, w x = w' x) :
    weightedEdges (stabGraph bk sp code) w = weightedEdges (stabGraph bk sp code) w' := by
  unfold weightedEdges
  refine List.map_congr_left fun e he => ?_
  obtain ⟨e, x⟩ := e
  cases x with
  | none => rfl
  | some x => simp only; rw [hw x (C28_toggles h bk sp he fun _ => false).1]

/-- Uniform weights, MWPM: few enough errors are corrected. -/
theorem correctAll_low {code : Code} (h : IsCode code) (X : Libs) {o : Opts} (ho : o.method = "uniform") (a : Attrs)
    (weights : V → Option ℝ) (sanity : Bool) {bits : V → Bool}
    (hlow : ∀ i ∈ planesToCheck code.ec code.boundaries, 2 * weight code bits < code.dims i) :
    ∃ bits' w, correctAll X code "MWPM" o a weights sanity bits = some (bits', w, true) := by
  obtain ⟨w, hw, hs, -, h1, -⟩ := weights_ok h (name := "MWPM") (o := o) (a := a) (Or.inl ⟨rfl, Or.inl ho⟩) weights
  obtain ⟨b, hb⟩ := C36_corrects h X.bk X.paths X.matching X.sp bits hlow sanity
  refine ⟨b, w, ?_⟩
  rw [correctAll_of hw hs]
  have : correct code (decoderFunc X code "MWPM" fun q => X.float.fl ((w q).getD 0)) sanity bits = some (b, true) := by
    rw [← hb]
    apply correct_congr
    unfold decoderFunc mwpmDecoder matchGraph
    simp only [if_true]
    rw [weightedEdges_congr h X.bk X.sp (w := fun q => X.float.fl ((w q).getD 0)) (w' := fun _ => 1)]
    intro x hx
    rw [h1 ho rfl x hx, Option.getD_some]
    have := X.float.int 1
    simpa using this
  rw [this]
  rfl

/-- C59.  If in every trial fewer syndrome qubits are hit than half the size of the code in each checked direction, MWPM
counts no errors.  Trial `k` of rank `r` hits node number `j` if number `k * nodes + j` of its random numbers is below
the error probability. -/
theorem C59_iid_low {code : Code} (h : IsCode code) (X : Libs) {o : Opts} (ho : o.method = "uniform") (p : ℝ) (trials : ℕ)
    {size : ℕ} (hs : 0 < size) (s : ℕ → (Noise.Attrs V × (ℕ → ℝ)) × (V → Option ℝ))
    (hlow : ∀ r < size, ∀ k, ∀ i ∈ planesToCheck code.ec code.boundaries,
      2 * (code.syndrome.countP fun x => decide ((s r).1.2 (k * (PyDict.keys code.graph.nodes).length +
        (PyDict.keys code.graph.nodes).idxOf x) < p)) < code.dims i) :
    ∃ err, monteCarlo (ecTrial X code "MWPM" o (iidModel code p)) trials size s = some err ∧ err 0 = 0 := by
  set n := (PyDict.keys code.graph.nodes).length with hn
  obtain ⟨err, e1, -, -, e4⟩ := sim_inv (trial := ecTrial X code "MWPM" o (iidModel code p))
    (Inv := fun s => ∀ k, ∀ i ∈ planesToCheck code.ec code.boundaries,
      2 * (code.syndrome.countP fun x => decide (s.1.2 (k * n + (PyDict.keys code.graph.nodes).idxOf x) < p)) < code.dims i)
    (good := fun b => b = true) (fun s hi => by
      obtain ⟨b, w, ok, h1, h2, -⟩ := ecTrial_of (X := X) h (name := "MWPM") (o := o) (N := iidModel code p) (s := s) rfl
        (Or.inl ⟨rfl, Or.inl ho⟩)
      refine ⟨_, _, h1, ?_, fun k i hpl => ?_⟩
      · obtain ⟨b', w', h3⟩ := correctAll_low h X ho ((iidModel code p).attrs _) s.2 false
          (bits := (iidModel code p).bits (Noise.iidApply p s.1.2 (PyDict.keys code.graph.nodes) s.1.1,
            fun i => s.1.2 (n + i))) (fun i hpl => by
          have := hi 0 i hpl
          refine lt_of_le_of_lt (le_of_eq ?_) this
          unfold weight
          congr 1
          refine List.countP_congr fun x hx => ?_
          have hx' := h.syndrome_node hx
          have hk := List.idxOf_lt_length_of_mem hx'
          have hb := (Noise.C44_apply p s.1.2 (PyDict.keys code.graph.nodes) h.ok.1.nodesNd s.1.1).1 _ hk
          rw [List.getElem_idxOf] at hb
          change decide ((Noise.iidApply p s.1.2 (PyDict.keys code.graph.nodes) s.1.1).bit x = some 1) = true ↔ _
          rw [hb]
          simp)
        rw [h2] at h3
        simp only [Option.some.injEq, Prod.mk.injEq] at h3
        exact h3.2.2
      · have := hi (k + 1) i hpl
        refine lt_of_le_of_lt (le_of_eq ?_) this
        congr 1
        refine List.countP_congr fun x hx => ?_
        change decide (s.1.2 (n + _) < p) = true ↔ _
        rw [show n + (k * n + (PyDict.keys code.graph.nodes).idxOf x) =
          (k + 1) * n + (PyDict.keys code.graph.nodes).idxOf x by ring]) trials hs s hlow
  exact ⟨err, e1, e4 fun b hb => hb⟩

/-! ### What a trial leaves behind -/

/-- The attributes `bit_val` of a code after error correction with verdict `ok`: a bit on every syndrome qubit, no odd stabilizer,
and a noiseless pattern exactly if the verdict is `True`. -/
def Corrected (code : Code) (attr : V → Option ℤ) (ok : Bool) : Prop :=
  (∀ x ∈ code.syndrome, attr x = some 0 ∨ attr x = some 1) ∧
    trivialSyndrome code (fun x => decide (attr x = some 1)) ∧
    (ok = true ↔ ∃ vals : V → Bool, ∀ x ∈ code.syndrome, attr x = some (if parity vals (neighbors code x) then 1 else 0))

theorem corrected_of {code : Code} (h : IsCode code) {attr : V → Option ℤ} {b : V → Bool} {ok : Bool}
    (ha : ∀ x ∈ code.syndrome, attr x = some (if b x then 1 else 0)) (ht : trivialSyndrome code b)
    (hok : ok = true ↔ ∃ vals : V → Bool, ∀ x ∈ code.syndrome, b x = parity vals (neighbors code x)) :
    Corrected code attr ok := by
  refine ⟨fun x hx => ?_, ?_, hok.trans ⟨?_, ?_⟩⟩
  · rw [ha x hx]
    cases b x <;> simp
  · intro s hs
    rw [← ht s hs]
    unfold parity
    rw [List.map_congr_left fun v hv => ?_]
    rw [ha v (((C25_only_syndrome h).2.1 s hs).2 v hv)]
    cases b v <;> simp
  · rintro ⟨vals, hv⟩
    exact ⟨vals, fun x hx => by rw [ha x hx, hv x hx]⟩
  · rintro ⟨vals, hv⟩
    refine ⟨vals, fun x hx => ?_⟩
    have := hv x hx
    rw [ha x hx] at this
    revert this
    cases b x <;> cases parity vals (neighbors code x) <;> simp

/-- C59.  A trial with independent errors leaves corrected bits behind; bits outside the syndrome are as drawn. -/
theorem C59_iid_state {code : Code} (h : IsCode code) (X : Libs) {name : String} (hn : name = "MWPM" ∨ name = "UF") {o : Opts}
    (ho : o.method = "uniform") (p : ℝ) (s : (Noise.Attrs V × (ℕ → ℝ)) × (V → Option ℝ)) :
    ∃ ok s', ecTrial X code name o (iidModel code p) s = some (ok, s') ∧ Corrected code s'.1.1.bit ok ∧
      ∀ (k : ℕ) (hk : k < (PyDict.keys code.graph.nodes).length), (PyDict.keys code.graph.nodes)[k] ∉ code.syndrome →
        s'.1.1.bit (PyDict.keys code.graph.nodes)[k] = some (if s.1.2 k < p then 1 else 0) := by
  have hv : ∀ a, Valid code name o a := fun a => by
    rcases hn with rfl | rfl
    · exact Or.inl ⟨rfl, Or.inl ho⟩
    · exact Or.inr ⟨rfl, ho⟩
  obtain ⟨b, w, ok, h1, h2, -⟩ := ecTrial_of (X := X) h (name := name) (o := o) (N := iidModel code p) (s := s) rfl (hv _)
  obtain ⟨b', w', ok', c1, c2, c3, c4, -⟩ := C58_correct h X (hv _) s.2 false _
  rw [h2] at c1
  simp only [Option.some.injEq, Prod.mk.injEq] at c1
  obtain ⟨rfl, rfl, rfl⟩ := c1
  have hbit := (Noise.C44_apply p s.1.2 (PyDict.keys code.graph.nodes) h.ok.1.nodesNd s.1.1).1
  refine ⟨_, _, h1, corrected_of h (fun x hx => ?_) c3 c4, fun k hk hks => ?_⟩
  · obtain ⟨k, hk, rfl⟩ := List.getElem_of_mem (h.syndrome_node hx)
    change putBits b (Noise.iidApply p s.1.2 (PyDict.keys code.graph.nodes) s.1.1).bit _ = _
    unfold putBits
    rw [hbit k hk]
    rfl
  · change putBits b (Noise.iidApply p s.1.2 (PyDict.keys code.graph.nodes) s.1.1).bit _ = _
    unfold putBits
    rw [hbit k hk]
    have := not_imp_comm.1 (c2 (PyDict.keys code.graph.nodes)[k]) hks
    rw [this]
    change some (if decide ((Noise.iidApply p s.1.2 (PyDict.keys code.graph.nodes) s.1.1).bit _ = some 1) = true then (1 : ℤ) else 0) = _
    rw [hbit k hk]
    by_cases hlt : s.1.2 k < p <;> simp [hlt]

/-! ### Continuous-variable noise -/

/-- C59.  A trial with a `CVLayer` in the initial sampling order, after any history of the layer, leaves corrected bits behind. -/
theorem C59_cv_state {code : Code} (h : IsCode code) (X : Libs) {pts : List V} {delta : ℝ} {pSwap : Option ℝ} {L₀ : Noise.Layer V}
    (hL : Noise.OnCode code pts delta pSwap .initial none L₀) (hd : 0 < delta) {name : String} {o : Opts}
    (hv : (o.method = "uniform" ∧ (name = "MWPM" ∨ name = "UF")) ∨ (o.method = "blueprint" ∧ name = "MWPM" ∧
      o.probPrecomputed = false ∧ (∃ d, o.delta = some d ∧ 0 < d) ∧ (o.integer = true → 1 ≤ o.multiplier)))
    {s : (Noise.Layer V × (ℕ → List ℕ × Noise.Rnd)) × (V → Option ℝ)} {n : ℕ} (hh : Noise.Hist L₀ n s.1.1)
    (hdr : ∀ i ∈ (s.1.2 0).1, i < pts.length) :
    ∃ ok s', ecTrial X code name o (cvModel code pts) s = some (ok, s') ∧ Corrected code s'.1.1.attrs.bit ok ∧
      Noise.Hist L₀ (n + 1) s'.1.1 ∧ s'.1.2 = fun i => s.1.2 (i + 1) := by
  have hf := hL.fresh h
  obtain ⟨f1, -⟩ := hL.fields
  obtain ⟨ps₀, gs₀, hi0⟩ := hh.inv hf
  have hpts : s.1.1.pts = pts := hi0.pts.trans f1
  obtain ⟨L', ps, gs, a1, a2, a3, a4⟩ := Noise.C53_apply_noise_initial h hL hf hd hh (s.1.2 0).1 hdr (s.1.2 0).2
  have hh' := hh.apply _ _ _ _ (by rw [hpts]; exact hdr) a1
  have happ : (cvModel code pts).apply s.1 = some (L', fun i => s.1.2 (i + 1)) := by
    change Option.map _ (Noise.applyNoise _ _ _ _ _) = _
    rw [a1]
    rfl
  have hval : Valid code name o ((cvModel code pts).attrs (L', fun i => s.1.2 (i + 1))) := by
    rcases hv with ⟨ho, hn⟩ | ⟨ho, hn, h1, h2, h3⟩
    · rcases hn with rfl | rfl
      · exact Or.inl ⟨rfl, Or.inl ho⟩
      · exact Or.inr ⟨rfl, ho⟩
    · refine Or.inl ⟨hn, Or.inr ⟨ho, ⟨?_, ?_, ?_, h3⟩⟩⟩
      · intro v hvn
        obtain ⟨qs, -, hq⟩ := Noise.C46_labels hf hh' (by omega)
        obtain ⟨ps', gs', hi'⟩ := hh'.inv hf
        have hp' : L'.pts = pts := hi'.pts.trans f1
        have hm : v ∈ L'.pts := by rw [hp']; exact hL.perm.mem_iff.2 hvn
        obtain ⟨i, hi, rfl⟩ := List.getElem_of_mem hm
        exact ⟨_, hq i hi⟩
      · intro hc; rw [h1] at hc; cases hc
      · intro _
        exact ⟨h2, fun q hq => ⟨_, (a4 q hq).1⟩⟩
  obtain ⟨b, w, ok, h1, h2, -⟩ := ecTrial_of (X := X) h (s := s) happ hval
  obtain ⟨b', w', ok', c1, c2, c3, c4, -⟩ := C58_correct h X hval s.2 false _
  rw [h2] at c1
  simp only [Option.some.injEq, Prod.mk.injEq] at c1
  obtain ⟨rfl, rfl, rfl⟩ := c1
  refine ⟨_, _, h1, corrected_of h (fun x hx => ?_) c3 c4, hh'.bits _, rfl⟩
  change putBits b L'.attrs.bit x = _
  unfold putBits
  rw [(a4 x hx).2]
  rfl

/-- C59.  A simulation with a `CVLayer` in the initial sampling order never raises: with uniform weights and either
decoder, and with blueprint weights (for a positive noise parameter in the options) and MWPM. -/
theorem C59_cv {code : Code} (h : IsCode code) (X : Libs) {pts : List V} {delta : ℝ} {pSwap : Option ℝ} {L₀ : Noise.Layer V}
    (hL : Noise.OnCode code pts delta pSwap .initial none L₀) (hd : 0 < delta) {name : String} {o : Opts}
    (hv : (o.method = "uniform" ∧ (name = "MWPM" ∨ name = "UF")) ∨ (o.method = "blueprint" ∧ name = "MWPM" ∧
      o.probPrecomputed = false ∧ (∃ d, o.delta = some d ∧ 0 < d) ∧ (o.integer = true → 1 ≤ o.multiplier)))
    (trials : ℕ) {size : ℕ} (hs : 0 < size) (rnd : ℕ → ℕ → List ℕ × Noise.Rnd)
    (hr : ∀ r < size, ∀ k, ∀ i ∈ (rnd r k).1, i < pts.length) :
    ∃ err, monteCarlo (ecTrial X code name o (cvModel code pts)) trials size (fun r => ((L₀, rnd r), fun _ => none)) = some err ∧
      0 ≤ err 0 ∧ err 0 ≤ trials := by
  obtain ⟨err, e1, e2, e3, -⟩ := sim_inv (trial := ecTrial X code name o (cvModel code pts))
    (Inv := fun s => (∃ n, Noise.Hist L₀ n s.1.1) ∧ ∀ k, ∀ i ∈ (s.1.2 k).1, i < pts.length) (good := fun _ => True)
    (fun s hi => by
      obtain ⟨⟨n, hh⟩, hdr⟩ := hi
      obtain ⟨ok, s', h1, -, h2, h3⟩ := C59_cv_state h X hL hd hv (s := s) hh (hdr 0)
      exact ⟨_, _, h1, trivial, ⟨n + 1, h2⟩, fun k => by rw [h3]; exact hdr (k + 1)⟩) trials hs
    (fun r => ((L₀, rnd r), fun _ => none)) (fun r hr' => ⟨⟨0, .start⟩, hr r hr'⟩)
  exact ⟨err, e1, e2, e3⟩

/-- C59.  A trial with a `CVMacroLayer`, after any history of the layer, leaves corrected bits behind. -/
theorem C59_macro_state {code : Code} (X : Libs) {delta : ℝ} {pSwap : Option ℝ} {M₀ : Noise.Macro EGraph.Pt}
    (hM : Noise.OnPolarCode code delta pSwap M₀) {name : String} {o : Opts}
    (hv : (o.method = "uniform" ∧ (name = "MWPM" ∨ name = "UF")) ∨ (o.method = "blueprint" ∧ name = "MWPM" ∧
      o.probPrecomputed = true ∧ (o.integer = true → 1 ≤ o.multiplier)))
    {s : (Noise.Macro EGraph.Pt × (ℕ → Noise.MacroRnd)) × (V → Option ℝ)} {n : ℕ} (hh : Noise.MacroHist M₀ n s.1.1)
    (hdr : (∀ i ∈ (s.1.2 0).draw, i < M₀.layer.pts.length) ∧ (s.1.2 0).empty.length = 2 * M₀.layer.pts.length) :
    ∃ ok s', ecTrial X code name o macroModel s = some (ok, s') ∧ Corrected code (fun x => s'.1.1.redBit (Noise.toPt x)) ok ∧
      Noise.MacroHist M₀ (n + 1) s'.1.1 ∧ s'.1.2 = (fun i => s.1.2 (i + 1)) ∧
      ((∃ M' vals, Noise.macroApply s.1.1 (s.1.2 0) = some M' ∧ ∀ x ∈ code.syndrome,
        decide (M'.redBit (Noise.toPt x) = some 1) = parity vals (neighbors code x)) → ok = true) := by
  have h := hM.valid
  obtain ⟨cs, hok, hf, hdel, hsw, -⟩ := hM.ok
  have hp : s.1.1.layer.pts = M₀.layer.pts := by
    obtain ⟨h1, -⟩ := hh.inv hok hf
    obtain ⟨ps, gs, hi⟩ := h1.inv hf
    exact hi.pts
  obtain ⟨M', a1, a2⟩ := Noise.C56_code hM hh (s.1.2 0) (by rw [hp]; exact hdr.1) (by rw [hp]; exact hdr.2)
  have hh' := hh.apply (s.1.2 0) (by rw [hp]; exact hdr.1) (by rw [hp]; exact hdr.2) a1
  have happ : macroModel.apply s.1 = some (M', fun i => s.1.2 (i + 1)) := by
    change Option.map _ (Noise.macroApply _ _) = _
    rw [a1]
    rfl
  have hval : Valid code name o (macroModel.attrs (M', fun i => s.1.2 (i + 1))) := by
    rcases hv with ⟨ho, hn⟩ | ⟨ho, hn, h1, h3⟩
    · rcases hn with rfl | rfl
      · exact Or.inl ⟨rfl, Or.inl ho⟩
      · exact Or.inr ⟨rfl, ho⟩
    · refine Or.inl ⟨hn, Or.inr ⟨ho, ⟨fun v hvn => ?_, fun _ q hq => ?_, fun hc => ?_, h3⟩⟩⟩
      · rcases (a2 v hvn).1 with e | e <;> exact ⟨_, e⟩
      · obtain ⟨-, -, y, hy, h0, -⟩ := a2 q (h.syndrome_node hq)
        exact ⟨y, hy, h0⟩
      · rw [h1] at hc; cases hc
  obtain ⟨b, w, ok, h1, h2, h3⟩ := ecTrial_of (X := X) h (s := s) happ hval
  obtain ⟨b', w', ok', c1, c2, c3, c4, -⟩ := C58_correct h X hval s.2 false _
  rw [h2] at c1
  simp only [Option.some.injEq, Prod.mk.injEq] at c1
  obtain ⟨rfl, rfl, rfl⟩ := c1
  refine ⟨_, _, h1, corrected_of h (fun x hx => ?_) c3 c4, hh'.bits _, rfl, ?_⟩
  · change putBits (fun p : EGraph.Pt => b ![⌊p.1⌋, ⌊p.2.1⌋, ⌊p.2.2⌋]) M'.redBit (Noise.toPt x) = _
    unfold putBits
    have hx3 : (![⌊(Noise.toPt x).1⌋, ⌊(Noise.toPt x).2.1⌋, ⌊(Noise.toPt x).2.2⌋] : V) = x := by
      funext i
      fin_cases i <;> simp [Noise.toPt]
    beta_reduce
    rw [hx3]
    rcases (a2 x (h.syndrome_node hx)).2.1 with e | e <;> rw [e] <;> rfl
  · rintro ⟨M'', vals, e, hvals⟩
    rw [a1] at e
    obtain rfl := Option.some.inj e
    exact h3 vals hvals

/-- C59.  A simulation with a `CVMacroLayer` (on a code with any polarity of values 1 and -1) never raises: with uniform weights and either decoder, and
with blueprint weights from the stored probabilities and MWPM.  Without swap-outs and with small noise it
counts no errors. -/
theorem C59_macro {code : Code} (X : Libs) {delta : ℝ} {pSwap : Option ℝ} {M₀ : Noise.Macro EGraph.Pt}
    (hM : Noise.OnPolarCode code delta pSwap M₀) {name : String} {o : Opts}
    (hv : (o.method = "uniform" ∧ (name = "MWPM" ∨ name = "UF")) ∨ (o.method = "blueprint" ∧ name = "MWPM" ∧
      o.probPrecomputed = true ∧ (o.integer = true → 1 ≤ o.multiplier)))
    (trials : ℕ) {size : ℕ} (hs : 0 < size) (rnd : ℕ → ℕ → Noise.MacroRnd)
    (hr : ∀ r < size, ∀ k, (∀ i ∈ (rnd r k).draw, i < M₀.layer.pts.length) ∧
      (rnd r k).empty.length = 2 * M₀.layer.pts.length) :
    ∃ err, monteCarlo (ecTrial X code name o macroModel) trials size (fun r => ((M₀, rnd r), fun _ => none)) = some err ∧
      0 ≤ err 0 ∧ err 0 ≤ trials ∧
      (pSwap = none → (∃ eps : ℝ, 20 * eps < √Real.pi ∧ ∀ r < size, ∀ k z,
        |√(delta / 2) * (rnd r k).p.z z| ≤ eps ∧ |√(delta / 2) * (rnd r k).q.z z| ≤ eps) → err 0 = 0) := by
  have hp : ∀ {n M}, Noise.MacroHist M₀ n M → M.layer.pts = M₀.layer.pts := fun hh => by
    obtain ⟨cs, hok, hf, -⟩ := hM.ok
    obtain ⟨h1, -⟩ := hh.inv hok hf
    obtain ⟨ps, gs, hi⟩ := h1.inv hf
    exact hi.pts
  obtain ⟨err, e1, e2, e3, -⟩ := sim_inv (trial := ecTrial X code name o macroModel)
    (Inv := fun s => (∃ n, Noise.MacroHist M₀ n s.1.1) ∧ ∀ k, (∀ i ∈ (s.1.2 k).draw, i < M₀.layer.pts.length) ∧
      (s.1.2 k).empty.length = 2 * M₀.layer.pts.length) (good := fun _ => True)
    (fun s hi => by
      obtain ⟨⟨n, hh⟩, hdr⟩ := hi
      obtain ⟨ok, s', h1, -, h2, h3, -⟩ := C59_macro_state X hM hv (s := s) hh (hdr 0)
      exact ⟨_, _, h1, trivial, ⟨n + 1, h2⟩, fun k => by rw [h3]; exact hdr (k + 1)⟩) trials hs
    (fun r => ((M₀, rnd r), fun _ => none)) (fun r hr' => ⟨⟨0, .start⟩, hr r hr'⟩)
  refine ⟨err, e1, e2, e3, fun hns heps => ?_⟩
  obtain ⟨eps, heps, hz⟩ := heps
  subst hns
  obtain ⟨err', e1', -, -, e4⟩ := sim_inv (trial := ecTrial X code name o macroModel)
    (Inv := fun s => (∃ n, Noise.MacroHist M₀ n s.1.1) ∧ ∀ k, ((∀ i ∈ (s.1.2 k).draw, i < M₀.layer.pts.length) ∧
      (s.1.2 k).empty.length = 2 * M₀.layer.pts.length) ∧ ∀ z,
        |√(delta / 2) * (s.1.2 k).p.z z| ≤ eps ∧ |√(delta / 2) * (s.1.2 k).q.z z| ≤ eps) (good := fun b => b = true)
    (fun s hi => by
      obtain ⟨⟨n, hh⟩, hdr⟩ := hi
      obtain ⟨ok, s', h1, -, h2, h3, h4⟩ := C59_macro_state X hM hv (s := s) hh (hdr 0).1
      obtain ⟨M'', b1, ⟨vals, b2⟩, -⟩ := Noise.C55_no_swap hM hh (s.1.2 0) (by rw [hp hh]; exact (hdr 0).1.1)
        (by rw [hp hh]; exact (hdr 0).1.2) heps (fun z => ((hdr 0).2 z).1) (fun z => ((hdr 0).2 z).2)
      exact ⟨_, _, h1, h4 ⟨M'', vals, b1, b2⟩, ⟨n + 1, h2⟩, fun k => by rw [h3]; exact hdr (k + 1)⟩) trials hs
    (fun r => ((M₀, rnd r), fun _ => none)) (fun r hr' => ⟨⟨0, .start⟩, fun k => ⟨hr r hr' k, hz r hr' k⟩⟩)
  rw [e1] at e1'
  rw [Option.some.inj e1']
  exact e4 fun b hb => hb

/-! ### Concrete cases -/

-- three ranks with their own random numbers, error probability zero, Union-Find
example (u : ℕ → ℕ → ℝ) (hu : ∀ r i, 0 ≤ u r i) (trials : ℕ) : ∃ code X err, IsCode code ∧
    monteCarlo (ecTrial X code "UF" {} (iidModel code 0)) trials 3
      (fun r => ((⟨fun _ => none, fun _ => none, fun _ => none, fun _ => none⟩, u r), fun _ => none)) = some err ∧ err 0 = 0 := by
  obtain ⟨code, h, -, -, -⟩ := C54_constructor_total idOrder .dual .toric (dims := fun _ => 3) (by simp) none
  obtain ⟨X, -⟩ := libs_exist .rustworkx
  have hc : IsCode code := ⟨idOrder, .dual, .toric, _, none, by simp, h⟩
  obtain ⟨err, e1, -, -, e2⟩ := C59_iid hc X (Or.inr rfl) (o := {}) rfl 0 trials (size := 3) (by simp)
    (fun r => ((⟨fun _ => none, fun _ => none, fun _ => none, fun _ => none⟩, u r), fun _ => none))
  exact ⟨code, X, err, hc, e1, e2 rfl fun r _ i => hu r i⟩

-- a macronode layer with noise 1/200 and normal deviates of absolute value at most one
example (z : ℕ → ℝ) (hz : ∀ k, |z k| ≤ 1) (k : ℕ → ℤ) (trials : ℕ) : ∃ code X M₀ err, IsCode code ∧
    monteCarlo (ecTrial X code "MWPM" { method := "blueprint", probPrecomputed := true } macroModel) trials 2
      (fun _ => ((M₀, fun _ => ⟨[], ⟨z, fun _ => 0, k⟩, ⟨z, fun _ => 0, k⟩, ⟨z, fun _ => 0, k⟩,
        List.replicate (2 * M₀.layer.pts.length) 0⟩), fun _ => none)) = some err ∧ err 0 = 0 := by
  obtain ⟨code, M, hM, -, -⟩ := Noise.onMacroCode_exists .primal .open (delta := 1 / 200) (by norm_num) none
  obtain ⟨X, -⟩ := libs_exist .networkx
  obtain ⟨err, e1, -, -, e2⟩ := C59_macro X hM.toOnPolarCode (name := "MWPM") (o := { method := "blueprint", probPrecomputed := true })
    (Or.inr ⟨rfl, rfl, rfl, by simp⟩) trials (size := 2) (by simp)
    (fun _ _ => ⟨[], ⟨z, fun _ => 0, k⟩, ⟨z, fun _ => 0, k⟩, ⟨z, fun _ => 0, k⟩,
        List.replicate (2 * M.layer.pts.length) 0⟩) (by simp)
  have hsq : √((1 / 200 : ℝ) / 2) = 1 / 20 := by
    rw [show ((1 / 200 : ℝ) / 2) = (1 / 20) ^ 2 by norm_num, Real.sqrt_sq (by norm_num)]
  refine ⟨code, X, M, err, hM.valid, e1, e2 rfl ⟨1 / 20, ?_, fun r _ _ j => ?_⟩⟩
  · rw [show (20 : ℝ) * (1 / 20) = √1 by norm_num]
    exact Real.sqrt_lt_sqrt (by norm_num) (by linarith [Real.pi_gt_three])
  · simp only [hsq, abs_mul]
    have := hz j
    have h2 : |(1 / 20 : ℝ)| = 1 / 20 := by norm_num
    rw [h2]
    constructor <;> linarith

end Flamingpy.Trial
