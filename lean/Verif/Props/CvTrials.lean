import Verif.Props.CvLaw
import Verif.Proofs.IidTrial

/-!
# C65: simulations with a `CVLayer` without swap-outs

Every second trial of a process is noiseless (C45), so the error rate is about half the failure probability of a noisy trial.
-/

namespace Flamingpy.Trial

open Flamingpy Flamingpy.SurfaceCode Flamingpy.UnionFind Flamingpy.Weights Flamingpy.Sim MeasureTheory ProbabilityTheory

variable {Ω : Type*} [MeasurableSpace Ω] {μ : Measure Ω} [IsProbabilityMeasure μ]

/-- The options of `C59_cv`. -/
def CvOptions (name : String) (o : Opts) : Prop :=
  (o.method = "uniform" ∧ (name = "MWPM" ∨ name = "UF")) ∨ (o.method = "blueprint" ∧ name = "MWPM" ∧
      o.probPrecomputed = false ∧ (∃ d, o.delta = some d ∧ 0 < d) ∧ (o.integer = true → 1 ≤ o.multiplier))

/-- Node attributes without squeezed states. -/
def gkpAttrs : Weights.Attrs := ⟨fun _ => some "GKP", fun _ => none, fun _ => none⟩

open Classical in
/-- Specification: the syndrome qubits whose bits are 1 if all modes are noisy GKP states and `z` are the deviates of the positions and
momenta: the momentum of a qubit is its own noise plus the position noise of its neighbours times the edge weights. -/
noncomputable def cvFlips (code : Code) (pts : List V) (delta : ℝ) (z : ℕ → ℝ) : Finset V :=
  code.syndrome.toFinset.filter fun x => Gkp.gkpBinner (√(delta / 2) * z (pts.length + pts.idxOf x) +
    ∑ y ∈ pts.toFinset, Noise.edgeWeight code x y * (√(delta / 2) * z (pts.idxOf y))) = 1

/-- Specification: the momentum outcome of a qubit if all modes are noisy GKP states and `z` are the deviates of the positions and momenta. -/
noncomputable def cvOutcome (code : Code) (pts : List V) (delta : ℝ) (z : ℕ → ℝ) (x : V) : ℝ :=
  √(delta / 2) * z (pts.length + pts.idxOf x) + ∑ y ∈ pts.toFinset, Noise.edgeWeight code x y * (√(delta / 2) * z (pts.idxOf y))

/-- Specification: the node attributes of noisy GKP states with their outcomes. -/
noncomputable def outcomeAttrs (code : Code) (pts : List V) (delta : ℝ) (z : ℕ → ℝ) : Weights.Attrs :=
  ⟨fun _ => some "GKP", fun x => some (cvOutcome code pts delta z x), fun _ => none⟩

theorem cv_step_any {code : Code} (h : IsCode code) (X : Libs) {pts : List V} {delta : ℝ} {L₀ : Noise.Layer V}
    (hL : Noise.OnCode code pts delta none .initial none L₀) (hd : 0 < delta) {name : String} {o : Opts} (hv : CvOptions name o)
    {s : (Noise.Layer V × (ℕ → List ℕ × Noise.Rnd)) × (V → Option ℝ)} {n : ℕ} (hh : Noise.Hist L₀ n s.1.1)
    (hdr : ∀ i ∈ (s.1.2 0).1, i < pts.length) :
    ∃ ok s', ecTrial X code name o (cvModel code pts) s = some (ok, s') ∧ Noise.Hist L₀ (n + 1) s'.1.1 ∧
      (s'.1.2 = fun i => s.1.2 (i + 1)) ∧ (Odd n → ok = true) ∧ (Even n →
        (ok = false ↔ Fails X code name o (outcomeAttrs code pts delta (s.1.2 0).2.z) (cvFlips code pts delta (s.1.2 0).2.z)) ∧
        (o.method = "uniform" → (ok = false ↔ Fails X code name o gkpAttrs (cvFlips code pts delta (s.1.2 0).2.z)))) := by
  have hf := hL.fresh h
  obtain ⟨f1, -, f3, -, -, f6, -⟩ := hL.fields
  obtain ⟨ps₀, gs₀, hi0⟩ := hh.inv hf
  have hpts : s.1.1.pts = pts := hi0.pts.trans f1
  have hnd : pts.Nodup := hL.perm.nodup_iff.2 h.ok.1.nodesNd
  obtain ⟨L', ps, gs, a1, a2, a3, a4⟩ := Noise.C53_apply_noise_initial h hL hf hd hh (s.1.2 0).1 hdr (s.1.2 0).2
  have hh' := hh.apply _ _ _ _ (by rw [hpts]; exact hdr) a1
  obtain ⟨ps', gs', b1, b2, b3, b4, b5⟩ := Noise.C45_alternates hf hh' (by omega) (by rw [f3]; simp)
  have hp0 : ps' = [] := by
    rw [(Noise.C53_constructor none none).2.1 rfl] at f6
    unfold Noise.Layer.pInds at b1
    rw [← Option.some.inj f6] at b1
    simpa [PyDict.get?] using b1.symm
  rw [a2] at b2
  rw [a3] at b3
  obtain rfl := Option.some.inj b2
  obtain rfl := Option.some.inj b3
  subst hp0
  have happ : (cvModel code pts).apply s.1 = some (L', fun i => s.1.2 (i + 1)) := by
    change Option.map _ (Noise.applyNoise _ _ _ _ _) = _
    rw [a1]
    rfl
  obtain ⟨ps', gs', hi'⟩ := hh'.inv hf
  have hp' : L'.pts = pts := hi'.pts.trans f1
  have hlab : ∀ v ∈ PyDict.keys code.graph.nodes, L'.attrs.state v = some "GKP" := by
    intro v hvn
    obtain ⟨qs, q0, hq⟩ := Noise.C46_labels hf hh' (by omega)
    have hm : v ∈ L'.pts := by rw [hp']; exact hL.perm.mem_iff.2 hvn
    obtain ⟨i, hi, rfl⟩ := List.getElem_of_mem hm
    rw [a2] at q0
    rw [hq i hi, ← Option.some.inj q0, if_neg (by simp)]
  have hval : Valid code name o ((cvModel code pts).attrs (L', fun i => s.1.2 (i + 1))) := by
    rcases hv with ⟨ho, hn⟩ | ⟨ho, hn, h1, h2, h3⟩
    · rcases hn with rfl | rfl
      · exact Or.inl ⟨rfl, Or.inl ho⟩
      · exact Or.inr ⟨rfl, ho⟩
    · refine Or.inl ⟨hn, Or.inr ⟨ho, ⟨fun v hvn => ⟨_, hlab v hvn⟩, ?_, ?_, h3⟩⟩⟩
      · intro hc; rw [h1] at hc; cases hc
      · intro _
        exact ⟨h2, fun q hq => ⟨_, (a4 q hq).1⟩⟩
  obtain ⟨b, w, ok, h1, h2, h3⟩ := ecTrial_of (X := X) h (s := s) happ hval
  refine ⟨_, _, h1, hh'.bits _, rfl, fun hn => ?_, fun hn => ?_⟩
  · obtain ⟨L'', c1, c2⟩ := Noise.C45_noiseless h hL hd hh hn (s.1.2 0).1 hdr (s.1.2 0).2
    rw [a1] at c1
    obtain rfl := Option.some.inj c1
    refine h3 (fun _ => false) fun x hx => ?_
    change decide (L'.attrs.bit x = some 1) = _
    rw [(c2 x hx).2]
    have hpz : ∀ l : List V, parity (fun _ => false) l = false := by
      intro l
      unfold parity
      induction l with
      | nil => rfl
      | cons a l ih => simpa using ih
    rw [hpz]
    simp
  · have hname : name = "MWPM" ∨ name = "UF" := by
      rcases hv with ⟨_, hn⟩ | ⟨_, hn, _⟩
      · exact hn
      · exact Or.inl hn
    have hgs : ∀ i, i ∈ gs ↔ i < pts.length := by
      intro i
      have := b4 hn.add_one i
      rw [hp'] at this
      simpa using this
    have heq : ∀ x ∈ code.syndrome, Noise.outcomeP code pts delta [] gs (s.1.2 0).2.z x = cvOutcome code pts delta (s.1.2 0).2.z x := by
      intro x hx
      have hxp : x ∈ pts := hL.perm.mem_iff.2 (h.syndrome_node hx)
      have hix := List.idxOf_lt_length_of_mem hxp
      unfold Noise.outcomeP Noise.sdP cvOutcome
      rw [if_pos (Or.inl ((hgs _).2 hix)), ← Noise.sum_pts hnd]
      congr 1
      refine Finset.sum_congr rfl fun j _ => ?_
      rw [Noise.sdQ, if_pos ((hgs _).2 j.2), hnd.idxOf_getElem j.1 j.2]
    have hsq : ∀ a' : Weights.Attrs, (∀ x, a'.state x = some "GKP") → ∀ x ∈ code.syndrome,
        squeezedNeighbors code ((cvModel code pts).attrs (L', fun i => s.1.2 (i + 1))) x = squeezedNeighbors code a' x := by
      intro a' ha' x _
      unfold squeezedNeighbors
      refine List.countP_congr fun v hv => ?_
      have hv' : v ∈ PyDict.keys code.graph.nodes := (List.mem_filter.1 hv).1
      change decide (L'.attrs.state v = some "p") = true ↔ _
      rw [hlab v hv', ha']
    have hbits : ∀ x ∈ code.syndrome, (cvModel code pts).bits (L', fun i => s.1.2 (i + 1)) x =
        decide (x ∈ cvFlips code pts delta (s.1.2 0).2.z) := by
      intro x hx
      change decide (L'.attrs.bit x = some 1) = _
      rw [(a4 x hx).2, heq x hx]
      rw [Bool.eq_iff_iff]
      simp [cvFlips, hx, cvOutcome]
    refine ⟨?_, fun ho => verdict_iff' h X hname ho (hsq _ fun _ => rfl) hbits h2⟩
    rcases hv with ⟨ho, -⟩ | ⟨ho, hmw, p1, ⟨d₀, p2, p3⟩, p4⟩
    · exact verdict_iff' h X hname ho (hsq _ fun _ => rfl) hbits h2
    · have hb' : BlueprintOk code o (outcomeAttrs code pts delta (s.1.2 0).2.z) := ⟨fun _ _ => ⟨_, rfl⟩,
        fun hc => absurd (p1.symm.trans hc) (by decide), fun _ => ⟨⟨d₀, p2, p3⟩, fun q _ => ⟨_, rfl⟩⟩, p4⟩
      refine verdict_iff_w h X hval (Or.inl ⟨hmw, Or.inr ⟨ho, hb'⟩⟩) (fun w1 w2 e1 e2 x hx => ?_) hbits h2
      subst hmw
      rcases hval with ⟨-, hu | ⟨-, hb⟩⟩ | ⟨hu, -⟩
      · rw [ho] at hu; exact absurd hu (by decide)
      · rw [assignNodes_blueprint h o ho _ hb] at e1
        rw [assignNodes_blueprint h o ho _ hb'] at e2
        rw [← Except.ok.inj e1, ← Except.ok.inj e2]
        have hqp : qubitProb code o ((cvModel code pts).attrs (L', fun i => s.1.2 (i + 1))) x =
            qubitProb code o (outcomeAttrs code pts delta (s.1.2 0).2.z) x := by
          have h1 : ((cvModel code pts).attrs (L', fun i => s.1.2 (i + 1))).homValP x =
              (outcomeAttrs code pts delta (s.1.2 0).2.z).homValP x := by
            change L'.attrs.homP x = some _
            rw [(a4 x hx).1, heq x hx]
          unfold qubitProb
          rw [h1, p1]
          rfl
        simp only [hqp]
        rw [hsq (outcomeAttrs code pts delta (s.1.2 0).2.z) (fun _ => rfl) x hx, if_pos hx, if_pos hx]
      · exact absurd hu (by decide)

theorem cv_step {code : Code} (h : IsCode code) (X : Libs) {pts : List V} {delta : ℝ} {L₀ : Noise.Layer V}
    (hL : Noise.OnCode code pts delta none .initial none L₀) (hd : 0 < delta) {name : String} {o : Opts} (hv : CvOptions name o)
    {s : (Noise.Layer V × (ℕ → List ℕ × Noise.Rnd)) × (V → Option ℝ)} {n : ℕ} (hh : Noise.Hist L₀ n s.1.1)
    (hdr : ∀ i ∈ (s.1.2 0).1, i < pts.length) :
    ∃ ok s', ecTrial X code name o (cvModel code pts) s = some (ok, s') ∧ Noise.Hist L₀ (n + 1) s'.1.1 ∧
      (s'.1.2 = fun i => s.1.2 (i + 1)) ∧ (Odd n → ok = true) ∧ (Even n → o.method = "uniform" →
        (ok = false ↔ Fails X code name o gkpAttrs (cvFlips code pts delta (s.1.2 0).2.z))) := by
  obtain ⟨ok, s', h1, h2, h3, h4, h5⟩ := cv_step_any h X hL hd hv hh hdr
  exact ⟨ok, s', h1, h2, h3, h4, fun hn ho => (h5 hn).2 ho⟩

theorem cv_outcome_any {code : Code} (h : IsCode code) (X : Libs) {pts : List V} {delta : ℝ} {L₀ : Noise.Layer V}
    (hL : Noise.OnCode code pts delta none .initial none L₀) (hd : 0 < delta) {name : String} {o : Opts} (hv : CvOptions name o)
    (rnd : ℕ → List ℕ × Noise.Rnd) (hr : ∀ k, ∀ i ∈ (rnd k).1, i < pts.length) (w : V → Option ℝ) (k : ℕ) :
    ∃ ok, outcome (ecTrial X code name o (cvModel code pts)) k ((L₀, rnd), w) = some ok ∧ (Odd k → ok = true) ∧
      (Even k → (ok = false ↔ Fails X code name o (outcomeAttrs code pts delta (rnd k).2.z) (cvFlips code pts delta (rnd k).2.z)) ∧
        (o.method = "uniform" → (ok = false ↔ Fails X code name o gkpAttrs (cvFlips code pts delta (rnd k).2.z)))) := by
  have haft : ∀ k, ∃ s', after (ecTrial X code name o (cvModel code pts)) k ((L₀, rnd), w) = some s' ∧
      Noise.Hist L₀ k s'.1.1 ∧ s'.1.2 = fun i => rnd (k + i) := by
    intro k
    induction k with
    | zero => exact ⟨_, rfl, .start, by simp⟩
    | succ k ih =>
      obtain ⟨s1, e1, h1, c1⟩ := ih
      obtain ⟨ok, s2, e2, h2, c2, -⟩ := cv_step_any h X hL hd hv (s := s1) h1 (by rw [c1]; exact hr _)
      refine ⟨s2, by rw [after, e1, Option.bind_some, e2]; rfl, h2, ?_⟩
      rw [c2, c1]
      funext i
      simp only
      congr 1
      ring
  obtain ⟨s1, e1, h1, c1⟩ := haft k
  obtain ⟨ok, s2, e2, -, -, h3, h4⟩ := cv_step_any h X hL hd hv (s := s1) h1 (by rw [c1]; exact hr _)
  refine ⟨ok, by rw [outcome, e1, Option.bind_some, e2]; rfl, h3, fun hk => ?_⟩
  have h5 := h4 hk
  rw [c1] at h5
  exact h5

theorem cv_outcome {code : Code} (h : IsCode code) (X : Libs) {pts : List V} {delta : ℝ} {L₀ : Noise.Layer V}
    (hL : Noise.OnCode code pts delta none .initial none L₀) (hd : 0 < delta) {name : String} {o : Opts} (hv : CvOptions name o)
    (rnd : ℕ → List ℕ × Noise.Rnd) (hr : ∀ k, ∀ i ∈ (rnd k).1, i < pts.length) (w : V → Option ℝ) (k : ℕ) :
    ∃ ok, outcome (ecTrial X code name o (cvModel code pts)) k ((L₀, rnd), w) = some ok ∧ (Odd k → ok = true) ∧
      (Even k → o.method = "uniform" → (ok = false ↔ Fails X code name o gkpAttrs (cvFlips code pts delta (rnd k).2.z))) := by
  obtain ⟨ok, h1, h2, h3⟩ := cv_outcome_any h X hL hd hv rnd hr w k
  exact ⟨ok, h1, h2, fun hk ho => (h3 hk).2 ho⟩

/-- C65.  A simulation with a `CVLayer` without swap-outs, in the initial sampling order: the trials number 2, 4, ... of every process
always succeed, whatever the noise, so at most the others are counted; a single process counts at most half of the trials (rounded up). -/
theorem C65_half {code : Code} (h : IsCode code) (X : Libs) {pts : List V} {delta : ℝ} {L₀ : Noise.Layer V}
    (hL : Noise.OnCode code pts delta none .initial none L₀) (hd : 0 < delta) {name : String} {o : Opts} (hv : CvOptions name o)
    (trials : ℕ) {size : ℕ} (hs : 0 < size) (rnd : ℕ → ℕ → List ℕ × Noise.Rnd)
    (hr : ∀ r < size, ∀ k, ∀ i ∈ (rnd r k).1, i < pts.length) :
    ∃ err, monteCarlo (ecTrial X code name o (cvModel code pts)) trials size (fun r => ((L₀, rnd r), fun _ => none)) = some err ∧
      err 0 ≤ ((List.range trials).countP fun i => decide (i / size % 2 = 0) : ℕ) ∧
      (size = 1 → err 0 ≤ ((trials + 1) / 2 : ℕ)) := by
  obtain ⟨err, e1, -⟩ := C59_cv h X hL hd hv trials hs rnd hr
  obtain ⟨-, e2, -⟩ := C49_errors _ trials size hs _ err e1
  have hle : err 0 ≤ ((List.range trials).countP fun i => decide (i / size % 2 = 0) : ℕ) := by
    rw [e2]
    norm_cast
    refine List.countP_mono_left fun i _ hi => ?_
    rw [decide_eq_true_eq] at hi ⊢
    obtain ⟨ok, k1, k2, -⟩ := cv_outcome h X hL hd hv (rnd (i % size)) (hr _ (Nat.mod_lt _ hs)) (fun _ => none) (i / size)
    rw [k1] at hi
    by_contra hc
    rw [k2 (Nat.odd_iff.2 (by omega))] at hi
    simp at hi
  refine ⟨err, e1, hle, fun h1 => hle.trans ?_⟩
  subst h1
  norm_cast
  simp only [Nat.div_one]
  clear hle e2 e1 err
  induction trials with
  | zero => simp
  | succ n ih =>
    rw [List.range_succ, List.countP_append]
    simp only [List.countP_cons, List.countP_nil, decide_eq_true_eq]
    have : (List.range n).countP (fun i => decide (i % 2 = 0)) = (n + 1) / 2 := by
      clear ih
      induction n with
      | zero => rfl
      | succ n ih =>
        rw [List.range_succ, List.countP_append, ih]
        simp only [List.countP_cons, List.countP_nil, decide_eq_true_eq]
        split_ifs <;> omega
    rw [this]
    split_ifs <;> omega

/-- Specification: the probability that `correct` answers `False` if all modes are noisy GKP states. -/
noncomputable def noisyFailure (X : Libs) (code : Code) (pts : List V) (delta : ℝ) (name : String) (o : Opts) : ℝ :=
  (Measure.infinitePi fun _ : ℕ => gaussianReal 0 1).real {z | Fails X code name o gkpAttrs (cvFlips code pts delta z)}

theorem measurable_cvFlips (code : Code) (pts : List V) (delta : ℝ) (F : Finset V → Prop) :
    MeasurableSet {z : ℕ → ℝ | F (cvFlips code pts delta z)} := by
  classical
  have hset : {z : ℕ → ℝ | F (cvFlips code pts delta z)} = ⋃ S ∈ code.syndrome.toFinset.powerset.filter F,
      ⋂ x ∈ code.syndrome.toFinset, {z : ℕ → ℝ | Gkp.gkpBinner (√(delta / 2) * z (pts.length + pts.idxOf x) +
        ∑ y ∈ pts.toFinset, Noise.edgeWeight code x y * (√(delta / 2) * z (pts.idxOf y))) = 1 ↔ x ∈ S} := by
    ext z
    simp only [Set.mem_setOf_eq, Set.mem_iUnion, Set.mem_iInter, Finset.mem_filter, Finset.mem_powerset, exists_prop]
    constructor
    · intro hF
      refine ⟨cvFlips code pts delta z, ⟨Finset.filter_subset _ _, hF⟩, fun x hx => ?_⟩
      rw [cvFlips, Finset.mem_filter]
      exact ⟨fun e => ⟨hx, e⟩, fun e => e.2⟩
    · rintro ⟨S, ⟨h1, h2⟩, h3⟩
      have : cvFlips code pts delta z = S := by
        ext x
        rw [cvFlips, Finset.mem_filter]
        constructor
        · rintro ⟨hx, e⟩; exact (h3 x hx).1 e
        · intro hx; exact ⟨h1 hx, (h3 x (h1 hx)).2 hx⟩
      rw [this]
      exact h2
  rw [hset]
  refine Finset.measurableSet_biUnion _ fun S _ => Finset.measurableSet_biInter _ fun x _ => ?_
  have hm : Measurable fun z : ℕ → ℝ => Gkp.gkpBinner (√(delta / 2) * z (pts.length + pts.idxOf x) +
        ∑ y ∈ pts.toFinset, Noise.edgeWeight code x y * (√(delta / 2) * z (pts.idxOf y))) :=
    Gkp.measurable_binner.comp (by fun_prop)
  by_cases hx : x ∈ S
  · simp only [hx, iff_true]
    exact hm (measurableSet_singleton (1 : ℤ))
  · simp only [hx, iff_false]
    exact hm (measurableSet_singleton (1 : ℤ)).compl

/-- C65.  With independent normal deviates and uniform weights, the expected number of errors is the failure probability of a noisy trial
times the number of trials that are the first, third, ... of their process: a single process reports half of
the failure probability. -/
theorem C65_mean {code : Code} (h : IsCode code) (X : Libs) {pts : List V} {delta : ℝ} {L₀ : Noise.Layer V}
    (hL : Noise.OnCode code pts delta none .initial none L₀) (hd : 0 < delta) {name : String} (hn : name = "MWPM" ∨ name = "UF")
    {o : Opts} (ho : o.method = "uniform") (trials : ℕ) {size : ℕ} (hs : 0 < size) {Z : ℕ × ℕ × ℕ → Ω → ℝ}
    (hZ : Noise.NormalIid Z μ) (draw : ℕ → ℕ → List ℕ) (hr : ∀ r k, ∀ i ∈ draw r k, i < pts.length) (u : ℕ → ℕ → ℕ → ℝ)
    (b : ℕ → ℕ → ℕ → ℤ) (errors : Ω → ℤ)
    (he : ∀ ω, ∃ err, monteCarlo (ecTrial X code name o (cvModel code pts)) trials size
      (fun r => ((L₀, fun k => (draw r k, ⟨fun i => Z (r, k, i) ω, u r k, b r k⟩)), fun _ => none)) = some err ∧ errors ω = err 0) :
    ∫ ω, (errors ω : ℝ) ∂μ =
      ((List.range trials).countP fun i => decide (i / size % 2 = 0) : ℕ) * noisyFailure X code pts delta name o := by
  classical
  have hv : CvOptions name o := Or.inl ⟨ho, hn⟩
  set T := (Finset.range trials).filter fun i => i / size % 2 = 0 with hT
  set E : ℕ → Set Ω := fun t => {ω | Fails X code name o gkpAttrs (cvFlips code pts delta fun i =>
    Z (t % size, t / size, i) ω)} with hE
  have hE1 : ∀ t, MeasurableSet (E t) ∧ μ.real (E t) = noisyFailure X code pts delta name o := by
    intro t
    have hc : Noise.NormalIid (fun i => Z (t % size, t / size, i)) μ := hZ.comp (g := fun i => (t % size, t / size, i))
      (fun i j e => by simpa using e)
    have hm : Measurable fun ω (i : ℕ) => Z (t % size, t / size, i) ω := measurable_pi_lambda _ hc.meas
    have hA := measurable_cvFlips code pts delta (Fails X code name o gkpAttrs)
    have hlaw := hc.indep.map_fun_eq_infinitePi_map hc.meas
    simp_rw [hc.normal] at hlaw
    refine ⟨hm hA, ?_⟩
    unfold noisyFailure
    rw [← hlaw, measureReal_def, measureReal_def, Measure.map_apply hm hA]
    rfl
  have hsum : ∀ ω, (errors ω : ℝ) = ∑ t ∈ T, (E t).indicator (fun _ => (1 : ℝ)) ω := by
    intro ω
    obtain ⟨err, e1, e2⟩ := he ω
    obtain ⟨-, e3, -⟩ := C49_errors _ trials size hs _ err e1
    rw [e2, e3]
    have hcard : (List.range trials).countP (fun i => decide (outcome (ecTrial X code name o (cvModel code pts)) (i / size)
        ((L₀, fun k => (draw (i % size) k, ⟨fun j => Z (i % size, k, j) ω, u (i % size) k, b (i % size) k⟩)), fun _ => none) =
          some false)) = (T.filter fun t => ω ∈ E t).card := by
      rw [List.countP_eq_length_filter, ← List.toFinset_card_of_nodup (List.nodup_range.filter _)]
      congr 1
      ext t
      simp only [hT, Finset.mem_filter, Finset.mem_range, List.mem_toFinset, List.mem_filter, List.mem_range, decide_eq_true_eq]
      rw [and_assoc]
      refine and_congr_right fun _ => ?_
      obtain ⟨ok, k1, k2, k3⟩ := cv_outcome h X hL hd hv (fun k => (draw (t % size) k, ⟨fun j => Z (t % size, k, j) ω, u (t % size) k,
        b (t % size) k⟩)) (hr _) (fun _ => none) (t / size)
      rw [k1]
      rcases Nat.even_or_odd (t / size) with hk | hk
      · rw [Option.some.injEq, k3 hk ho]
        exact ⟨fun hf => ⟨Nat.even_iff.1 hk, hf⟩, fun hf => hf.2⟩
      · rw [k2 hk]
        have := Nat.odd_iff.1 hk
        simp [this]
    rw [hcard, Finset.card_filter]
    push_cast
    refine Finset.sum_congr rfl fun t _ => ?_
    rw [Set.indicator_apply]
  simp_rw [hsum]
  rw [integral_finsetSum]
  · simp_rw [integral_indicator_const (1 : ℝ) (hE1 _).1, (hE1 _).2]
    rw [Finset.sum_const, smul_eq_mul, mul_one, nsmul_eq_mul]
    congr 2
    rw [List.countP_eq_length_filter, ← List.toFinset_card_of_nodup (List.nodup_range.filter _)]
    congr 1
    ext t
    simp [hT]
  · intro t _
    exact (integrable_const (1 : ℝ)).indicator (hE1 t).1

-- 101 trials with MWPM on a planar code: at most 51 errors
example (rnd : ℕ → List ℕ × Noise.Rnd) (hr : ∀ k, (rnd k).1 = []) : ∃ code X pts L₀ err, IsCode code ∧
    Noise.OnCode code pts (1 / 10) none .initial none L₀ ∧
    monteCarlo (ecTrial X code "MWPM" { method := "blueprint", delta := some (1 / 10) } (cvModel code pts)) 101 1
      (fun _ => ((L₀, rnd), fun _ => none)) = some err ∧ err 0 ≤ 51 := by
  obtain ⟨code, pts, L, h1, h2, -⟩ := Noise.onCode_exists .primal .open (1 / 10) none .initial
  obtain ⟨X, -⟩ := libs_exist .networkx
  obtain ⟨err, e1, -, e2⟩ := C65_half h1 X h2 (by norm_num) (name := "MWPM")
    (o := { method := "blueprint", delta := some (1 / 10) }) (Or.inr ⟨rfl, rfl, rfl, ⟨_, rfl, by norm_num⟩, by simp⟩) 101 one_pos (fun _ => rnd)
    (fun _ _ k i hi => by rw [hr k] at hi; cases hi)
  exact ⟨code, X, pts, L, err, h1, h2, e1, e2 rfl⟩

example (trials : ℕ) : ∃ (Ω : Type) (_ : MeasurableSpace Ω) (μ : Measure Ω) (code : Code) (X : Libs) (pts : List V) (errors : Ω → ℤ),
    IsProbabilityMeasure μ ∧ IsCode code ∧
    ∫ ω, (errors ω : ℝ) ∂μ = ((List.range trials).countP fun i => decide (i / 2 % 2 = 0) : ℕ) *
      noisyFailure X code pts (1 / 10) "UF" {} := by
  obtain ⟨code, pts, L, h1, h2, -⟩ := Noise.onCode_exists .primal .periodic (1 / 10) none .initial
  obtain ⟨X, -⟩ := libs_exist .networkx
  obtain ⟨Ω, m, μ, hp, Z, hZ⟩ := Noise.normalIid_exists (ℕ × ℕ × ℕ)
  have hsim : ∀ ω, ∃ err, monteCarlo (ecTrial X code "UF" {} (cvModel code pts)) trials 2
      (fun r => ((L, fun k => ([], ⟨fun i => Z (r, k, i) ω, fun _ => 0, fun _ => 0⟩)), fun _ => none)) = some err := fun ω => by
    obtain ⟨err, e, -⟩ := C65_half h1 X h2 (by norm_num) (name := "UF") (o := {}) (Or.inl ⟨rfl, Or.inr rfl⟩) trials two_pos
      (fun r k => ([], ⟨fun i => Z (r, k, i) ω, fun _ => 0, fun _ => 0⟩)) (by simp)
    exact ⟨err, e⟩
  choose err herr using hsim
  exact ⟨Ω, m, μ, code, X, pts, fun ω => err ω 0, hp, h1, C65_mean h1 X h2 (by norm_num) (Or.inr rfl) rfl trials two_pos hZ
    (fun _ _ => []) (by simp) (fun _ _ _ => 0) (fun _ _ _ => 0) _ fun ω => ⟨err ω, herr ω, rfl⟩⟩

end Flamingpy.Trial
