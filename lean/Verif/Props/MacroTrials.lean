import Verif.Proofs.MacroFlip
import Verif.Props.MacroLaw
import Verif.Props.SwapTrials
import Verif.Props.ErrorRate
import Verif.Proofs.IidTrial
import Mathlib.Probability.Moments.SubGaussian

/-!
# C74: simulations with a `CVMacroLayer`

Unlike those of a `CVLayer` (C65, C68), the trials of a simulation are independent of each other and alike: the history of the layer changes
the bits of a trial but not its verdict.
-/

namespace Flamingpy.Trial

open Flamingpy Flamingpy.SurfaceCode Flamingpy.UnionFind Flamingpy.Weights Flamingpy.Sim MeasureTheory ProbabilityTheory

variable {Ω : Type*} [MeasurableSpace Ω] {μ : Measure Ω} [IsProbabilityMeasure μ]

/-- What the verdict of a trial depends on: the squeezed modes, the uniform numbers for the positions of squeezed modes, and the deviates of
the two measurements; not the bits of the GKP states. -/
def macroData (r : Noise.MacroRnd) : List ℕ × (ℕ → ℝ) × (ℕ → ℝ) × (ℕ → ℝ) := (r.draw, r.means.u, r.p.z, r.q.z)

/-- The arguments numpy can produce: indices of modes, and a buffer of the right size. -/
def MacroRndOk (M : Noise.Macro EGraph.Pt) (r : Noise.MacroRnd) : Prop :=
  (∀ i ∈ r.draw, i < M.layer.pts.length) ∧ r.empty.length = 2 * M.layer.pts.length

/-- The modes in GKP states. -/
noncomputable def macroG (M₀ : Noise.Macro EGraph.Pt) (draw : List ℕ) : ℕ → Bool := Noise.gkpSet (Noise.nextP M₀.layer draw [])

/-- The node attributes after a call. -/
noncomputable def macroAttrs (M₀ : Noise.Macro EGraph.Pt) (cs : List EGraph.Pt) (draw : List ℕ) : Weights.Attrs :=
  ⟨fun x => some (if macroG M₀ draw (Noise.starOf (macroG M₀ draw) (cs.idxOf (Noise.toPt x))) then "GKP" else "p"),
    fun _ => none, fun _ => none⟩

/-- The flipped qubits. -/
noncomputable def macroFlips (code : Code) (M₀ : Noise.Macro EGraph.Pt) (cs : List EGraph.Pt)
    (d : List ℕ × (ℕ → ℝ) × (ℕ → ℝ) × (ℕ → ℝ)) : Finset V :=
  code.syndrome.toFinset.filter fun x => Noise.flipInt M₀.layer (Noise.wI M₀) (macroG M₀ d.1) cs.length
    (Noise.nbList M₀ (cs.idxOf (Noise.toPt x))) d.2.1 d.2.2.1 d.2.2.2 (cs.idxOf (Noise.toPt x)) % 2 = 1

/-- The verdict is the same for bits that differ by a trivial error. -/
theorem verdict_class {code : Code} (h : IsCode code) (X : Libs) {name : String} (hn : name = "MWPM" ∨ name = "UF")
    {o : Opts} (ho : o.method = "uniform") {a a' : Weights.Attrs}
    (hsq : ∀ x ∈ code.syndrome, squeezedNeighbors code a x = squeezedNeighbors code a' x) {weights : V → Option ℝ} {bits vals : V → Bool}
    {S : Finset V} (hb : ∀ x ∈ code.syndrome, bits x = xor (decide (x ∈ S)) (parity vals (neighbors code x)))
    {b : V → Bool} {w : V → Option ℝ} {ok : Bool} (hc : correctAll X code name o a weights false bits = some (b, w, ok)) :
    ok = false ↔ Fails X code name o a' S := by
  have hv : Valid code name o a := by
    rcases hn with rfl | rfl
    · exact Or.inl ⟨rfl, Or.inl ho⟩
    · exact Or.inr ⟨rfl, ho⟩
  obtain ⟨b1, b2, w', ok', h1, h2, -⟩ := C58_class h X hv weights false (fun x => decide (x ∈ S)) vals (bits₂ := bits) hb
  rw [hc] at h2
  simp only [Option.some.injEq, Prod.mk.injEq] at h2
  obtain ⟨-, -, rfl⟩ := h2
  exact verdict_iff' h X hn ho hsq (fun _ _ => rfl) h1

theorem macro_step (X : Libs) {code : Code} {delta : ℝ} {pSwap : Option ℝ} {M₀ : Noise.Macro EGraph.Pt}
    (hM : Noise.OnPolarCode code delta pSwap M₀) : ∃ cs : List EGraph.Pt, Noise.MacroOk M₀ cs ∧ ∀ {name : String} {o : Opts},
    (name = "MWPM" ∨ name = "UF") → o.method = "uniform" →
    ∀ {s : (Noise.Macro EGraph.Pt × (ℕ → Noise.MacroRnd)) × (V → Option ℝ)} {n : ℕ}, Noise.MacroHist M₀ n s.1.1 →
    MacroRndOk M₀ (s.1.2 0) →
    ∃ ok s', ecTrial X code name o macroModel s = some (ok, s') ∧ Noise.MacroHist M₀ (n + 1) s'.1.1 ∧
      s'.1.2 = (fun i => s.1.2 (i + 1)) ∧ (ok = false ↔ Fails X code name o (macroAttrs M₀ cs (s.1.2 0).draw)
        (macroFlips code M₀ cs (macroData (s.1.2 0)))) := by
  have h := hM.valid
  obtain ⟨cs, hok, hf, hdel, hsw, hpi, h6, h7⟩ := hM.ok
  refine ⟨cs, hok, fun {name o} hn ho {s n} hh hdr => ?_⟩
  obtain ⟨hH, hfr⟩ := hh.inv hok hf
  obtain ⟨ps₀, gs₀, hi⟩ := hH.inv hf
  have hp : s.1.1.layer.pts = M₀.layer.pts := hi.pts
  have hd : ∀ i ∈ (s.1.2 0).draw, i < s.1.1.layer.pts.length := by rw [hp]; exact hdr.1
  have he : (s.1.2 0).empty.length = 2 * s.1.1.layer.pts.length := by rw [hp]; exact hdr.2
  obtain ⟨M', a1, a2, b, a3⟩ := Noise.run_flips hok hi hH hfr (s.1.2 0) hd he (Noise.nextP_hist hf hpi hH hi hd).symm
  have hh' := hh.apply (s.1.2 0) hd he a1
  have happ : macroModel.apply s.1 = some (M', fun i => s.1.2 (i + 1)) := by
    change Option.map _ (Noise.macroApply _ _) = _
    rw [a1]
    rfl
  have hval : Valid code name o (macroModel.attrs (M', fun i => s.1.2 (i + 1))) := by
    rcases hn with rfl | rfl
    · exact Or.inl ⟨rfl, Or.inl ho⟩
    · exact Or.inr ⟨rfl, ho⟩
  obtain ⟨b', w, ok, h1, h2, -⟩ := ecTrial_of (X := X) h (s := s) happ hval
  refine ⟨_, _, h1, hh'.bits _, rfl, ?_⟩
  have hidx : ∀ x ∈ PyDict.keys code.graph.nodes, ∃ hk : cs.idxOf (Noise.toPt x) < cs.length, cs[cs.idxOf (Noise.toPt x)] = Noise.toPt x := by
    intro x hx
    have := List.idxOf_lt_length_of_mem ((h6 (Noise.toPt x)).2 ⟨x, hx, rfl⟩)
    exact ⟨this, List.getElem_idxOf this⟩
  refine verdict_class h X hn ho (fun x hx => ?_) (vals := fun y => decide (Odd (b (Noise.toPt y)))) (fun x hx => ?_) h2
  · unfold squeezedNeighbors
    refine List.countP_congr fun v hv => ?_
    have hv' : v ∈ PyDict.keys code.graph.nodes := (List.mem_filter.1 hv).1
    obtain ⟨hk, hkx⟩ := hidx v hv'
    change decide (M'.redState (Noise.toPt v) = some "p") = true ↔ _
    have := a2 _ hk
    rw [hkx] at this
    rw [this]
    rfl
  · have hx' := h.syndrome_node hx
    obtain ⟨hk, hkx⟩ := hidx x hx'
    have := a3 _ hk
    rw [hkx] at this
    change decide (M'.redBit (Noise.toPt x) = some 1) = _
    rw [this, ← Noise.sum_parity]
    have hs : ((M₀.around (Noise.toPt x)).map b).sum = ((neighbors code x).map fun y => b (Noise.toPt y)).sum := by
      rw [((h7 x hx').map b).sum_eq, List.map_map]
      rfl
    rw [hs]
    have hm : x ∈ macroFlips code M₀ cs (macroData (s.1.2 0)) ↔ Noise.flipInt M₀.layer (Noise.wI M₀) (macroG M₀ (s.1.2 0).draw) cs.length
        (Noise.nbList M₀ (cs.idxOf (Noise.toPt x))) (s.1.2 0).means.u (s.1.2 0).p.z (s.1.2 0).q.z (cs.idxOf (Noise.toPt x)) % 2 = 1 := by
      unfold macroFlips macroData
      rw [Finset.mem_filter, List.mem_toFinset]
      exact ⟨fun e => e.2, fun e => ⟨hx, e⟩⟩
    rw [Bool.eq_iff_iff]
    simp only [decide_eq_true_eq, Option.some.injEq, hm]
    unfold macroG
    generalize Noise.flipInt _ _ _ _ _ _ _ _ _ = f
    generalize ((neighbors code x).map fun y => b (Noise.toPt y)).sum = g
    rcases Int.emod_two_eq_zero_or_one f with hf2 | hf2 <;> rcases Int.emod_two_eq_zero_or_one g with hg2 | hg2 <;>
      simp only [hf2, hg2, decide_true, Bool.xor_true, Bool.xor_false, zero_ne_one, decide_false, Bool.not_true, Bool.not_false,
        Bool.false_eq_true, iff_false, iff_true] <;> omega

/-- C74.  The verdict of a trial is the one which the same random numbers give with a fresh layer, however often the layer was used before
and whatever was measured with it in between; it does not depend on the bits drawn for the GKP states, although the outcomes do. -/
theorem C74_history (X : Libs) {code : Code} {delta : ℝ} {pSwap : Option ℝ} {M₀ M : Noise.Macro EGraph.Pt}
    (hM : Noise.OnPolarCode code delta pSwap M₀) {n : ℕ} (hh : Noise.MacroHist M₀ n M) {name : String} (hn : name = "MWPM" ∨ name = "UF")
    {o : Opts} (ho : o.method = "uniform") (rnd rnd' : ℕ → Noise.MacroRnd) (w w' : V → Option ℝ) (h1 : MacroRndOk M₀ (rnd 0))
    (h2 : MacroRndOk M₀ (rnd' 0)) (hd : macroData (rnd 0) = macroData (rnd' 0)) :
    ∃ ok s s', ecTrial X code name o macroModel ((M, rnd), w) = some (ok, s) ∧
      ecTrial X code name o macroModel ((M₀, rnd'), w') = some (ok, s') := by
  obtain ⟨cs, -, hstep⟩ := macro_step X hM
  obtain ⟨ok, s, e1, -, -, e2⟩ := hstep hn ho (s := ((M, rnd), w)) hh h1
  obtain ⟨ok', s', e3, -, -, e4⟩ := hstep hn ho (s := ((M₀, rnd'), w')) .start h2
  refine ⟨ok, s, s', e1, ?_⟩
  have hdd : (rnd 0).draw = (rnd' 0).draw := congrArg Prod.fst hd
  simp only at e2 e4
  rw [hdd, hd] at e2
  have : ok = ok' := by
    rw [← e4] at e2
    cases ok <;> cases ok' <;> simp_all
  rw [this]
  exact e3

theorem macro_outcome (X : Libs) {code : Code} {delta : ℝ} {pSwap : Option ℝ} {M₀ : Noise.Macro EGraph.Pt}
    (hM : Noise.OnPolarCode code delta pSwap M₀) : ∃ cs : List EGraph.Pt, Noise.MacroOk M₀ cs ∧ ∀ {name : String} {o : Opts},
    (name = "MWPM" ∨ name = "UF") → o.method = "uniform" →
    ∀ (rnd : ℕ → Noise.MacroRnd) (w : V → Option ℝ) (k : ℕ), (∀ i ≤ k, MacroRndOk M₀ (rnd i)) →
    ∃ ok, outcome (ecTrial X code name o macroModel) k ((M₀, rnd), w) = some ok ∧
      (ok = false ↔ Fails X code name o (macroAttrs M₀ cs (rnd k).draw) (macroFlips code M₀ cs (macroData (rnd k)))) := by
  obtain ⟨cs, hok, hstep⟩ := macro_step X hM
  refine ⟨cs, hok, fun {name o} hn ho rnd w k hr => ?_⟩
  have haft : ∀ m ≤ k, ∃ s', after (ecTrial X code name o macroModel) m ((M₀, rnd), w) = some s' ∧
      Noise.MacroHist M₀ m s'.1.1 ∧ s'.1.2 = fun i => rnd (m + i) := by
    intro m hm
    induction m with
    | zero => exact ⟨_, rfl, .start, by simp⟩
    | succ m ih =>
      obtain ⟨s1, e1, h1, c1⟩ := ih (by omega)
      obtain ⟨ok, s2, e2, h2, c2, -⟩ := hstep hn ho (s := s1) h1 (by rw [c1]; exact hr _ (by omega))
      refine ⟨s2, by rw [after, e1, Option.bind_some, e2]; rfl, h2, ?_⟩
      rw [c2, c1]
      funext i
      simp only
      congr 1
      ring
  obtain ⟨s1, e1, h1, c1⟩ := haft k le_rfl
  obtain ⟨ok, s2, e2, -, -, h4⟩ := hstep hn ho (s := s1) h1 (by rw [c1]; exact hr _ le_rfl)
  refine ⟨ok, by rw [outcome, e1, Option.bind_some, e2]; rfl, ?_⟩
  rw [h4, c1]
  rfl

/-- A simulation of a single trial, with a new layer, counts `e` errors. -/
def SingleTrial (X : Libs) (code : Code) (name : String) (o : Opts) (M₀ : Noise.Macro EGraph.Pt) (r : Noise.MacroRnd) (e : ℤ) : Prop :=
  ∃ err, monteCarlo (ecTrial X code name o macroModel) 1 1 (fun _ => ((M₀, fun _ => r), fun _ => none)) = some err ∧ err 0 = e

open Classical in
theorem macro_count (X : Libs) {code : Code} {delta : ℝ} {pSwap : Option ℝ} {M₀ : Noise.Macro EGraph.Pt}
    (hM : Noise.OnPolarCode code delta pSwap M₀) : ∃ cs : List EGraph.Pt, Noise.MacroOk M₀ cs ∧ ∀ {name : String} {o : Opts},
    (name = "MWPM" ∨ name = "UF") → o.method = "uniform" →
    ∀ (trials : ℕ) {size : ℕ}, 0 < size → ∀ (rnd : ℕ → ℕ → Noise.MacroRnd), (∀ r k, MacroRndOk M₀ (rnd r k)) →
    ∃ err, monteCarlo (ecTrial X code name o macroModel) trials size (fun r => ((M₀, rnd r), fun _ => none)) = some err ∧
      err 0 = ((List.range trials).countP fun i => decide (Fails X code name o (macroAttrs M₀ cs (rnd (i % size) (i / size)).draw)
        (macroFlips code M₀ cs (macroData (rnd (i % size) (i / size))))) : ℕ) := by
  obtain ⟨cs, hok, hout⟩ := macro_outcome X hM
  refine ⟨cs, hok, fun {name o} hn ho trials size hs rnd hr => ?_⟩
  obtain ⟨err, e1, -⟩ := C59_macro X hM (name := name) (o := o) (Or.inl ⟨ho, hn⟩) trials hs rnd (fun r _ k => hr r k)
  refine ⟨err, e1, ?_⟩
  obtain ⟨-, e2, -⟩ := C49_errors _ trials size hs _ err e1
  rw [e2]
  congr 1
  refine List.countP_congr fun i _ => ?_
  obtain ⟨ok, k1, k2⟩ := hout hn ho (rnd (i % size)) (fun _ => none) (i / size) (fun _ _ => hr _ _)
  rw [k1]
  simpa using k2

/-- C74.  The number of errors of a simulation is the number of its trials that fail in a simulation of a single trial, with a new layer, that
uses the same random numbers. -/
theorem C74_errors (X : Libs) {code : Code} {delta : ℝ} {pSwap : Option ℝ} {M₀ : Noise.Macro EGraph.Pt}
    (hM : Noise.OnPolarCode code delta pSwap M₀) {name : String} (hn : name = "MWPM" ∨ name = "UF")
    {o : Opts} (ho : o.method = "uniform") (trials : ℕ) {size : ℕ} (hs : 0 < size) (rnd : ℕ → ℕ → Noise.MacroRnd)
    (hr : ∀ r k, MacroRndOk M₀ (rnd r k)) :
    ∃ (err : ℕ → ℤ) (single : ℕ → ℕ → ℤ),
      monteCarlo (ecTrial X code name o macroModel) trials size (fun r => ((M₀, rnd r), fun _ => none)) = some err ∧
      (∀ r k, SingleTrial X code name o M₀ (rnd r k) (single r k)) ∧
      err 0 = ((List.range trials).map fun i => single (i % size) (i / size)).sum := by
  classical
  obtain ⟨cs, -, hc⟩ := macro_count X hM
  obtain ⟨err, e1, e2⟩ := hc hn ho trials hs rnd hr
  refine ⟨err, fun r k => if Fails X code name o (macroAttrs M₀ cs (rnd r k).draw) (macroFlips code M₀ cs (macroData (rnd r k)))
    then 1 else 0, e1, fun r k => ?_, ?_⟩
  · obtain ⟨err', f1, f2⟩ := hc hn ho 1 one_pos (fun _ _ => rnd r k) (fun _ _ => hr r k)
    refine ⟨err', f1, ?_⟩
    rw [f2]
    beta_reduce
    split_ifs with hF <;> simp [List.range_succ, hF]
  · rw [e2]
    clear e1 e2 hc
    induction List.range trials with
    | nil => rfl
    | cons i l ih =>
      rw [List.countP_cons, List.map_cons, List.sum_cons, ← ih]
      split_ifs <;> simp_all [add_comm]

/-- The calls of the random number generators of different `apply_noise` are independent and have the same law. -/
structure MacroIid {J : Type*} (R : J → Ω → Noise.MacroRnd) (μ : Measure Ω) : Prop where
  meas : ∀ j, Measurable fun ω => macroData (R j ω)
  indep : iIndepFun (fun j ω => macroData (R j ω)) μ
  ident : ∀ j j', μ.map (fun ω => macroData (R j ω)) = μ.map (fun ω => macroData (R j' ω))

omit [IsProbabilityMeasure μ] in
/-- The number of independent events that happen. -/
theorem binomial_events [IsProbabilityMeasure μ] {D : Type*} [MeasurableSpace D] {n : ℕ} {Y : Fin n → Ω → D} (hY : iIndepFun Y μ)
    (hm : ∀ t, Measurable (Y t)) {A : Set D} (hA : MeasurableSet A) {p : ℝ} (hp : ∀ t, μ.real (Y t ⁻¹' A) = p) (k : ℕ) :
    μ.real {ω | {t | Y t ω ∈ A}.ncard = k} = n.choose k * p ^ k * (1 - p) ^ (n - k) := by
  classical
  have hset : {ω | {t | Y t ω ∈ A}.ncard = k} = ⋃ T ∈ (Finset.univ : Finset (Fin n)).powersetCard k,
      ⋂ t ∈ (Finset.univ : Finset (Fin n)), Y t ⁻¹' (if t ∈ T then A else Aᶜ) := by
    ext ω
    simp only [Set.mem_ofPred_eq, Set.mem_iUnion, exists_prop, Finset.mem_powersetCard_univ, Set.mem_iInter, Finset.mem_univ,
      forall_true_left]
    constructor
    · intro h
      refine ⟨Finset.univ.filter fun t => Y t ω ∈ A, ?_, fun t => ?_⟩
      · rw [← h, Set.ncard_eq_toFinset_card']
        congr 1
        ext t
        simp
      · by_cases ht : Y t ω ∈ A <;> simp [ht]
    · rintro ⟨T, hT, h⟩
      rw [← hT, Set.ncard_eq_toFinset_card']
      congr 1
      ext t
      have := h t
      by_cases ht : t ∈ T <;> simp_all
  have hms : ∀ (T : Finset (Fin n)) (t : Fin n), MeasurableSet (if t ∈ T then A else Aᶜ) := by
    intro T t
    split_ifs
    · exact hA
    · exact hA.compl
  rw [hset, measureReal_biUnion_finset]
  · have hT : ∀ T ∈ (Finset.univ : Finset (Fin n)).powersetCard k,
        μ.real (⋂ t ∈ (Finset.univ : Finset (Fin n)), Y t ⁻¹' (if t ∈ T then A else Aᶜ)) = p ^ k * (1 - p) ^ (n - k) := by
      intro T hT
      rw [Finset.mem_powersetCard_univ] at hT
      rw [measureReal_def, hY.measure_inter_preimage_eq_mul Finset.univ (fun t _ => hms T t), ENNReal.toReal_prod]
      have : ∀ t, (μ (Y t ⁻¹' (if t ∈ T then A else Aᶜ))).toReal = if t ∈ T then p else 1 - p := by
        intro t
        split_ifs with ht
        · exact hp t
        · rw [← hp t, Set.preimage_compl]
          exact measureReal_compl (hm t hA) |>.trans (by rw [probReal_univ])
      rw [Finset.prod_congr rfl fun t _ => this t, Finset.prod_ite, Finset.prod_const, Finset.prod_const]
      congr 2
      · rw [← hT]; congr 1; ext t; simp
      · have := Finset.card_compl T
        rw [Fintype.card_fin, hT] at this
        rw [← this]
        congr 1
        ext t
        simp
    rw [Finset.sum_congr rfl hT, Finset.sum_const, Finset.card_powersetCard, Finset.card_univ, Fintype.card_fin, nsmul_eq_mul]
    ring
  · intro T hT T' hT' hne
    rw [Function.onFun, Set.disjoint_left]
    intro ω h h'
    simp only [Set.mem_iInter, Finset.mem_univ, forall_true_left] at h h'
    apply hne
    ext t
    have a := h t
    have b := h' t
    by_cases ht : t ∈ T <;> by_cases ht' : t ∈ T' <;> simp_all
  · intro T _
    exact Finset.measurableSet_biInter _ fun t _ => hm t (hms T t)

theorem measurable_listSum {E M : Type*} [MeasurableSpace E] [MeasurableSpace M] [AddCommMonoid M] [MeasurableAdd₂ M] (l : List ℕ)
    {f : ℕ → E → M} (hf : ∀ i, Measurable (f i)) : Measurable fun e => (l.map fun i => f i e).sum := by
  induction l with
  | nil => exact measurable_const
  | cons i l ih =>
    simp only [List.map_cons, List.sum_cons]
    exact (hf i).add ih

theorem measurable_zOf {E : Type*} [MeasurableSpace E] {q : ℕ → E → ℝ} (hq : ∀ t, Measurable (q t)) (t : ℕ) :
    Measurable fun e => Noise.zOf (fun t => q t e) t := by
  unfold Noise.zOf
  split
  · exact measurable_const
  · exact (hq 1).sub (hq 3)
  · exact (hq 2).sub (hq 3)
  · exact (hq 1).add (hq 2)

theorem measurable_flipInt (L : Noise.Layer EGraph.Pt) (w : ℕ → ℝ) (G : ℕ → Bool) (n : ℕ) (l : List ℕ) (k : ℕ) :
    Measurable fun e : (ℕ → ℝ) × (ℕ → ℝ) × (ℕ → ℝ) => Noise.flipInt L w G n l e.1 e.2.1 e.2.2 k := by
  have hz : ∀ i, Measurable fun e : (ℕ → ℝ) × (ℕ → ℝ) × (ℕ → ℝ) => Noise.zNoise L (Noise.permOf G n) e.2.2 i := by
    intro i
    unfold Noise.zNoise
    exact measurable_zOf (fun t => by fun_prop) _
  unfold Noise.flipInt Noise.flipOut Noise.outNoise
  refine (Gkp.measurable_binner.comp (((Measurable.sub ?_ (measurable_listSum _ hz)).add (measurable_listSum _ fun i => by fun_prop)).add
    (measurable_listSum _ fun i => by fun_prop))).add
    (measurable_listSum _ fun i => Gkp.measurable_binner.comp (hz i))
  unfold Noise.starNoise
  fun_prop

theorem measurable_macroFlips (code : Code) (M₀ : Noise.Macro EGraph.Pt) (cs : List EGraph.Pt) (F : List ℕ → Finset V → Prop) :
    MeasurableSet {d : List ℕ × (ℕ → ℝ) × (ℕ → ℝ) × (ℕ → ℝ) | F d.1 (macroFlips code M₀ cs d)} := by
  classical
  have hu : {d : List ℕ × (ℕ → ℝ) × (ℕ → ℝ) × (ℕ → ℝ) | F d.1 (macroFlips code M₀ cs d)} =
      ⋃ l : List ℕ, {l} ×ˢ {e | F l (macroFlips code M₀ cs (l, e))} := by
    ext ⟨l, e⟩
    simp
  rw [hu]
  refine MeasurableSet.iUnion fun l => (measurableSet_singleton l).prod ?_
  have hset : {e | F l (macroFlips code M₀ cs (l, e))} = ⋃ S ∈ code.syndrome.toFinset.powerset.filter (F l),
      ⋂ x ∈ code.syndrome.toFinset, {e : (ℕ → ℝ) × (ℕ → ℝ) × (ℕ → ℝ) | Noise.flipInt M₀.layer (Noise.wI M₀) (macroG M₀ l) cs.length
        (Noise.nbList M₀ (cs.idxOf (Noise.toPt x))) e.1 e.2.1 e.2.2 (cs.idxOf (Noise.toPt x)) % 2 = 1 ↔ x ∈ S} := by
    ext e
    simp only [Set.mem_ofPred_eq, Set.mem_iUnion, Set.mem_iInter, Finset.mem_filter, Finset.mem_powerset, exists_prop]
    constructor
    · intro hF
      refine ⟨macroFlips code M₀ cs (l, e), ⟨Finset.filter_subset _ _, hF⟩, fun x hx => ?_⟩
      rw [macroFlips, Finset.mem_filter]
      exact ⟨fun e => ⟨hx, e⟩, fun e => e.2⟩
    · rintro ⟨S, ⟨h1, h2⟩, h3⟩
      have : macroFlips code M₀ cs (l, e) = S := by
        ext x
        rw [macroFlips, Finset.mem_filter]
        constructor
        · rintro ⟨hx, e⟩; exact (h3 x hx).1 e
        · intro hx; exact ⟨h1 hx, (h3 x (h1 hx)).2 hx⟩
      rw [this]
      exact h2
  rw [hset]
  refine Finset.measurableSet_biUnion _ fun S _ => Finset.measurableSet_biInter _ fun x _ => ?_
  have hm : MeasurableSet {e : (ℕ → ℝ) × (ℕ → ℝ) × (ℕ → ℝ) | Noise.flipInt M₀.layer (Noise.wI M₀) (macroG M₀ l) cs.length
        (Noise.nbList M₀ (cs.idxOf (Noise.toPt x))) e.1 e.2.1 e.2.2 (cs.idxOf (Noise.toPt x)) % 2 = 1} :=
    (measurable_flipInt M₀.layer (Noise.wI M₀) (macroG M₀ l) cs.length (Noise.nbList M₀ (cs.idxOf (Noise.toPt x))) (cs.idxOf (Noise.toPt x)))
      (DiscreteMeasurableSpace.forall_measurableSet {f : ℤ | f % 2 = 1})
  by_cases hx : x ∈ S
  · simp only [hx, iff_true]
    exact hm
  · simp only [hx, iff_false]
    exact hm.compl

theorem macro_events (X : Libs) {code : Code} {delta : ℝ} {pSwap : Option ℝ} {M₀ : Noise.Macro EGraph.Pt}
    (hM : Noise.OnPolarCode code delta pSwap M₀) {name : String} (hn : name = "MWPM" ∨ name = "UF") {o : Opts} (ho : o.method = "uniform") :
    ∃ A : Set (List ℕ × (ℕ → ℝ) × (ℕ → ℝ) × (ℕ → ℝ)), MeasurableSet A ∧
      (∀ r, MacroRndOk M₀ r → (SingleTrial X code name o M₀ r 1 ↔ macroData r ∈ A)) ∧
      ∀ (trials : ℕ) {size : ℕ}, 0 < size → ∀ (rnd : ℕ → ℕ → Noise.MacroRnd), (∀ r k, MacroRndOk M₀ (rnd r k)) →
        ∃ err, monteCarlo (ecTrial X code name o macroModel) trials size (fun r => ((M₀, rnd r), fun _ => none)) = some err ∧
          err 0 = ({t : Fin trials | macroData (rnd ((t : ℕ) % size) ((t : ℕ) / size)) ∈ A}.ncard : ℕ) := by
  classical
  obtain ⟨cs, -, hc⟩ := macro_count X hM
  set A : Set (List ℕ × (ℕ → ℝ) × (ℕ → ℝ) × (ℕ → ℝ)) := {d | Fails X code name o (macroAttrs M₀ cs d.1) (macroFlips code M₀ cs d)} with hA
  refine ⟨A, measurable_macroFlips code M₀ cs fun l S => Fails X code name o (macroAttrs M₀ cs l) S, fun r hr => ?_,
    fun trials size hs rnd hr => ?_⟩
  · obtain ⟨err, f1, f2⟩ := hc hn ho 1 one_pos (fun _ _ => r) (fun _ _ => hr)
    simp only [Set.mem_ofPred_eq, SingleTrial, hA]
    rw [f1]
    simp only [Option.some.injEq, exists_eq_left']
    rw [f2]
    by_cases hF : Fails X code name o (macroAttrs M₀ cs (macroData r).1) (macroFlips code M₀ cs (macroData r))
    · have hF' : Fails X code name o (macroAttrs M₀ cs r.draw) (macroFlips code M₀ cs (macroData r)) := hF
      simp [hF, hF', List.range_succ]
    · have hF' : ¬ Fails X code name o (macroAttrs M₀ cs r.draw) (macroFlips code M₀ cs (macroData r)) := hF
      simp [hF, hF', List.range_succ]
  · obtain ⟨err, f1, f2⟩ := hc hn ho trials hs rnd hr
    refine ⟨err, f1, ?_⟩
    rw [f2, Nat.cast_inj, Set.ncard_eq_toFinset_card', ← Finset.card_map Fin.valEmbedding, List.countP_eq_length_filter,
      ← List.toFinset_card_of_nodup (List.nodup_range.filter _)]
    congr 1
    ext i
    simp only [List.mem_toFinset, List.mem_filter, List.mem_range, decide_eq_true_eq, Finset.mem_map, Set.mem_toFinset,
      Set.mem_ofPred_eq, Fin.valEmbedding_apply, hA]
    constructor
    · rintro ⟨a, b⟩; exact ⟨⟨i, a⟩, b, rfl⟩
    · rintro ⟨⟨i', a⟩, b, rfl⟩; exact ⟨a, b⟩

omit [IsProbabilityMeasure μ] in
theorem MacroIid.prob {J : Type*} {R : J → Ω → Noise.MacroRnd} (hR : MacroIid R μ) {A : Set (List ℕ × (ℕ → ℝ) × (ℕ → ℝ) × (ℕ → ℝ))}
    (hA : MeasurableSet A) (j j' : J) :
    μ.real ((fun ω => macroData (R j ω)) ⁻¹' A) = μ.real ((fun ω => macroData (R j' ω)) ⁻¹' A) := by
  rw [measureReal_def, measureReal_def, ← Measure.map_apply (hR.meas j) hA, hR.ident j j', Measure.map_apply (hR.meas _) hA]

/-- C74.  The number of errors is binomially distributed: every trial fails with the probability with which a single trial with a new layer
fails, independently of the others. -/
theorem C74_binomial (X : Libs) {code : Code} {delta : ℝ} {pSwap : Option ℝ} {M₀ : Noise.Macro EGraph.Pt}
    (hM : Noise.OnPolarCode code delta pSwap M₀) {name : String} (hn : name = "MWPM" ∨ name = "UF")
    {o : Opts} (ho : o.method = "uniform") (trials : ℕ) {size : ℕ} (hs : 0 < size) {R : ℕ × ℕ → Ω → Noise.MacroRnd} (hR : MacroIid R μ)
    (hr : ∀ j ω, MacroRndOk M₀ (R j ω)) (k : ℕ) {p : ℝ} (hp : μ.real {ω | SingleTrial X code name o M₀ (R (0, 0) ω) 1} = p) :
    μ.real {ω | ∃ err, monteCarlo (ecTrial X code name o macroModel) trials size
        (fun r => ((M₀, fun k => R (r, k) ω), fun _ => none)) = some err ∧ err 0 = k} =
      trials.choose k * p ^ k * (1 - p) ^ (trials - k) := by
  obtain ⟨A, hA, h1, h2⟩ := macro_events X hM hn ho
  have hpA : ∀ j, μ.real ((fun ω => macroData (R j ω)) ⁻¹' A) = p := by
    intro j
    rw [hR.prob hA j (0, 0), ← hp]
    congr 1
    ext ω
    exact (h1 _ (hr _ _)).symm
  have hinj : Function.Injective fun t : Fin trials => ((t : ℕ) % size, (t : ℕ) / size) := by
    intro t t' e
    simp only [Prod.mk.injEq] at e
    have h1 := Nat.div_add_mod (t : ℕ) size
    have h2 := Nat.div_add_mod (t' : ℕ) size
    rw [e.1, e.2, h2] at h1
    exact Fin.ext h1.symm
  have hY : iIndepFun (fun (t : Fin trials) ω => macroData (R ((t : ℕ) % size, (t : ℕ) / size) ω)) μ :=
    hR.indep.precomp (g := fun t : Fin trials => ((t : ℕ) % size, (t : ℕ) / size)) hinj
  rw [← binomial_events hY (fun t => hR.meas _) hA (fun t => hpA _) k]
  congr 1
  ext ω
  obtain ⟨err, f1, f2⟩ := h2 trials hs (fun r k => R (r, k) ω) (fun _ _ => hr _ _)
  simp only [Set.mem_ofPred_eq]
  rw [f1]
  simp only [Option.some.injEq, exists_eq_left']
  rw [f2, Nat.cast_inj]

/-- C74.  The reported error rate is unbiased, even if the random numbers of different trials depend on each other, as long as they have the
same law. -/
theorem C74_mean (X : Libs) {code : Code} {delta : ℝ} {pSwap : Option ℝ} {M₀ : Noise.Macro EGraph.Pt}
    (hM : Noise.OnPolarCode code delta pSwap M₀) {name : String} (hn : name = "MWPM" ∨ name = "UF")
    {o : Opts} (ho : o.method = "uniform") (trials : ℕ) {size : ℕ} (hs : 0 < size) {R : ℕ × ℕ → Ω → Noise.MacroRnd}
    (hm : ∀ j, Measurable fun ω => macroData (R j ω))
    (hi : ∀ j j', μ.map (fun ω => macroData (R j ω)) = μ.map (fun ω => macroData (R j' ω)))
    (hr : ∀ j ω, MacroRndOk M₀ (R j ω)) (errors : Ω → ℤ)
    (he : ∀ ω, ∃ err, monteCarlo (ecTrial X code name o macroModel) trials size
      (fun r => ((M₀, fun k => R (r, k) ω), fun _ => none)) = some err ∧ errors ω = err 0) :
    ∫ ω, (errors ω : ℝ) ∂μ = trials * μ.real {ω | SingleTrial X code name o M₀ (R (0, 0) ω) 1} := by
  classical
  obtain ⟨A, hA, h1, h2⟩ := macro_events X hM hn ho
  set E : Fin trials → Set Ω := fun t => (fun ω => macroData (R ((t : ℕ) % size, (t : ℕ) / size) ω)) ⁻¹' A with hE
  have hE1 : ∀ t, MeasurableSet (E t) ∧ μ.real (E t) = μ.real {ω | SingleTrial X code name o M₀ (R (0, 0) ω) 1} := by
    intro t
    refine ⟨hm _ hA, ?_⟩
    have : {ω | SingleTrial X code name o M₀ (R (0, 0) ω) 1} = (fun ω => macroData (R (0, 0) ω)) ⁻¹' A := by
      ext ω
      exact h1 _ (hr _ _)
    rw [this, measureReal_def, measureReal_def, ← Measure.map_apply (hm _) hA, hi _ (0, 0), Measure.map_apply (hm _) hA]
  have hsum : ∀ ω, (errors ω : ℝ) = ∑ t : Fin trials, (E t).indicator (fun _ => (1 : ℝ)) ω := by
    intro ω
    obtain ⟨err, e1, e2⟩ := he ω
    obtain ⟨err', f1, f2⟩ := h2 trials hs (fun r k => R (r, k) ω) (fun _ _ => hr _ _)
    rw [e1] at f1
    obtain rfl := Option.some.inj f1
    rw [e2, f2, Set.ncard_eq_toFinset_card', Int.cast_natCast]
    simp only [Set.indicator_apply]
    rw [Finset.sum_boole]
    congr 2
    ext t
    simp [hE]
  simp_rw [hsum]
  rw [integral_finsetSum]
  · simp_rw [integral_indicator_const (1 : ℝ) (hE1 _).1, (hE1 _).2]
    rw [Finset.sum_const, smul_eq_mul, mul_one, nsmul_eq_mul, Finset.card_univ, Fintype.card_fin]
  · intro t _
    exact (integrable_const (1 : ℝ)).indicator (hE1 t).1

/-- Without swap-outs the verdict depends on the deviates only. -/
theorem single_no_swap (X : Libs) {code : Code} {delta : ℝ} {M₀ : Noise.Macro EGraph.Pt} (hM : Noise.OnPolarCode code delta none M₀)
    {name : String} (hn : name = "MWPM" ∨ name = "UF") {o : Opts} (ho : o.method = "uniform") {r r' : Noise.MacroRnd}
    (h1 : MacroRndOk M₀ r) (h2 : MacroRndOk M₀ r') (hp : r.p.z = r'.p.z) (hq : r.q.z = r'.q.z) (e : ℤ) :
    SingleTrial X code name o M₀ r e ↔ SingleTrial X code name o M₀ r' e := by
  classical
  obtain ⟨cs0, hok, hf, hdel, hsw, hpi, h6, h7⟩ := hM.ok
  obtain ⟨cs, -, hc⟩ := macro_count X hM
  have hG : ∀ draw, macroG M₀ draw = fun _ => true := by
    intro draw
    funext i
    unfold macroG Noise.nextP Noise.gkpSet
    rw [if_neg]
    · simp
    · rintro ⟨x, hx, -⟩
      rw [hsw] at hx
      cases hx
  have ha : macroAttrs M₀ cs r.draw = macroAttrs M₀ cs r'.draw := by unfold macroAttrs; rw [hG, hG]
  have hfl : macroFlips code M₀ cs (macroData r) = macroFlips code M₀ cs (macroData r') := by
    unfold macroFlips macroData
    simp only [hG, Noise.flipInt, Noise.flipOut, hp, hq]
    simp
  obtain ⟨err, f1, f2⟩ := hc hn ho 1 one_pos (fun _ _ => r) (fun _ _ => h1)
  obtain ⟨err', g1, g2⟩ := hc hn ho 1 one_pos (fun _ _ => r') (fun _ _ => h2)
  unfold SingleTrial
  rw [f1, g1]
  simp only [Option.some.injEq, exists_eq_left']
  rw [f2, g2, ha, hfl]

/-- A single trial fails exactly if the decoder fails on the qubits whose bits differ from those of a noiseless run. -/
theorem single_iff (X : Libs) {code : Code} {delta : ℝ} {M₀ : Noise.Macro EGraph.Pt} (hM : Noise.OnPolarCode code delta none M₀)
    {name : String} (hn : name = "MWPM" ∨ name = "UF") {o : Opts} (ho : o.method = "uniform") {means rp rq : Noise.Rnd} {empty : List ℕ}
    (he : empty.length = 2 * M₀.layer.pts.length) {run : (Bool × ℕ → ℝ) → Noise.Macro EGraph.Pt}
    (hrun : ∀ z, Noise.macroApply M₀ (Noise.macroRnd [] means empty rp rq z) = some (run z)) (z : Bool × ℕ → ℝ) :
    SingleTrial X code name o M₀ (Noise.macroRnd [] means empty rp rq z) 1 ↔ Fails X code name o gkpAttrs
      (code.syndrome.toFinset.filter fun x => (run z).redBit (Noise.toPt x) ≠ (run fun _ => 0).redBit (Noise.toPt x)) := by
  classical
  have h := hM.valid
  have hr : ∀ z, MacroRndOk M₀ (Noise.macroRnd [] means empty rp rq z) := fun z => ⟨by simp [Noise.macroRnd], he⟩
  have hh : ∀ z, Noise.MacroHist M₀ 1 (run z) := fun z => Noise.MacroHist.apply _ .start (hr z).1 (hr z).2 (hrun z)
  obtain ⟨cs, hok, hf, -⟩ := hM.ok
  -- bits and labels
  have hbit : ∀ z, ∀ x ∈ PyDict.keys code.graph.nodes, (run z).redState (Noise.toPt x) = some "GKP" ∧
      ((run z).redBit (Noise.toPt x) = some 0 ∨ (run z).redBit (Noise.toPt x) = some 1) := by
    intro z x hx
    obtain ⟨M', a1, a2⟩ := Noise.C56_code hM .start _ (hr z).1 (hr z).2
    rw [hrun z] at a1
    obtain rfl := Option.some.inj a1
    obtain ⟨c, d1, d2, -, -, -, h6, -⟩ := hM.ok
    refine ⟨?_, (a2 x hx).2.1⟩
    exact (Noise.C48_reduced_label d1 d2 .start _ (hr z).1 (hr z).2 (hrun z) _ ((h6 _).2 ⟨x, hx, rfl⟩)).1
      (hM.all_gkp (hh z) le_rfl hx)
  -- the noiseless run
  obtain ⟨M', b1, ⟨vals, b2⟩, -⟩ := Noise.C55_no_swap hM .start (Noise.macroRnd [] means empty rp rq fun _ => 0) (hr _).1 (hr _).2
    (eps := 0) (by simp [Real.pi_pos]) (by simp [Noise.macroRnd]) (by simp [Noise.macroRnd])
  rw [hrun] at b1
  obtain rfl := Option.some.inj b1
  -- the trial
  have happ : macroModel.apply (M₀, fun _ => Noise.macroRnd [] means empty rp rq z) =
      some (run z, fun _ => Noise.macroRnd [] means empty rp rq z) := by
    change Option.map _ (Noise.macroApply _ _) = _
    rw [hrun z]
    rfl
  have hval : Valid code name o (macroModel.attrs (run z, fun _ => Noise.macroRnd [] means empty rp rq z)) := by
    rcases hn with rfl | rfl
    · exact Or.inl ⟨rfl, Or.inl ho⟩
    · exact Or.inr ⟨rfl, ho⟩
  obtain ⟨b', w, ok, h1, h2, -⟩ := ecTrial_of (X := X) h (s := ((M₀, fun _ => Noise.macroRnd [] means empty rp rq z), fun _ => none)) happ hval
  obtain ⟨err, e1, -⟩ := C59_macro X hM (name := name) (o := o) (Or.inl ⟨ho, hn⟩) 1 one_pos
    (fun _ _ => Noise.macroRnd [] means empty rp rq z) (fun _ _ _ => hr z)
  obtain ⟨-, e2, -⟩ := C49_errors _ 1 1 one_pos _ err e1
  have hout : outcome (ecTrial X code name o macroModel) 0 ((M₀, fun _ => Noise.macroRnd [] means empty rp rq z), fun _ => none) = some ok := by
    rw [outcome, after, Option.bind_some, h1]
    rfl
  have hS : SingleTrial X code name o M₀ (Noise.macroRnd [] means empty rp rq z) 1 ↔ ok = false := by
    unfold SingleTrial
    rw [e1]
    simp only [Option.some.injEq, exists_eq_left']
    rw [e2]
    simp only [List.range_succ, List.range_zero, List.nil_append, List.countP_cons, List.countP_nil, Nat.zero_div, hout]
    cases ok <;> simp
  rw [hS]
  refine verdict_class h X hn ho (fun x hx => ?_) (vals := vals) (fun x hx => ?_) h2
  · unfold squeezedNeighbors
    refine List.countP_congr fun v hv => ?_
    have hv' : v ∈ PyDict.keys code.graph.nodes := (List.mem_filter.1 hv).1
    change decide ((run z).redState (Noise.toPt v) = some "p") = true ↔ _
    rw [(hbit z v hv').1]
    rfl
  · have hx' := h.syndrome_node hx
    change decide ((run z).redBit (Noise.toPt x) = some 1) = _
    rw [← b2 x hx]
    rcases (hbit z x hx').2 with c1 | c1 <;> rcases (hbit (fun _ => 0) x hx').2 with c2 | c2 <;> simp [c1, c2, hx]

/-- C74.  Without swap-outs: if `m` flips are needed to make the decoder fail (`2 m ≥ d` for the shortest checked direction `d`), `n` is the
number of syndrome qubits and `f v` the probability that a centred Gaussian of variance `v` is binned to 1, then a trial fails with
probability at most `n (f (2 delta) + 4 f delta) / m`. -/
theorem C74_bound (X : Libs) {code : Code} {delta : ℝ} {M₀ : Noise.Macro EGraph.Pt} (hM : Noise.OnPolarCode code delta none M₀)
    (hd0 : 0 < delta) {name : String} (hn : name = "MWPM" ∨ name = "UF") {o : Opts} (ho : o.method = "uniform")
    {R : Ω → Noise.MacroRnd} (hr : ∀ ω, MacroRndOk M₀ (R ω))
    (hZ : Noise.NormalIid (fun (j : Bool × ℕ) ω => if j.1 then (R ω).p.z j.2 else (R ω).q.z j.2) μ)
    {d : ℕ} (hd : ∀ i ∈ planesToCheck code.ec code.boundaries, d ≤ code.dims i) :
    ((d + 1) / 2 : ℕ) * μ.real {ω | SingleTrial X code name o M₀ (R ω) 1} ≤
      code.syndrome.length * (Noise.flipProb (2 * delta) + 4 * Noise.flipProb delta) := by
  classical
  have h := hM.valid
  set Z : Bool × ℕ → Ω → ℝ := fun j ω => if j.1 then (R ω).p.z j.2 else (R ω).q.z j.2 with hZd
  set zr : Noise.Rnd := ⟨fun _ => 0, fun _ => 0, fun _ => 0⟩
  obtain ⟨run, hrun, hlaw⟩ := Noise.C69_no_swap hM hd0 .start [] zr (List.replicate (2 * M₀.layer.pts.length) 0) zr zr
    (by simp) (by simp) hZ
  set S : Ω → Finset V := fun ω => code.syndrome.toFinset.filter fun x =>
    (run fun j => Z j ω).redBit (Noise.toPt x) ≠ (run fun _ => 0).redBit (Noise.toPt x) with hS
  have hfail : ∀ ω, SingleTrial X code name o M₀ (R ω) 1 → (d + 1) / 2 ≤ (S ω).card := by
    intro ω hω
    rw [single_no_swap X hM hn ho (hr ω) (r' := Noise.macroRnd [] zr (List.replicate (2 * M₀.layer.pts.length) 0) zr zr fun j => Z j ω)
      ⟨by simp [Noise.macroRnd], by simp [Noise.macroRnd]⟩ (by simp [Noise.macroRnd, hZd]) (by simp [Noise.macroRnd, hZd]),
      single_iff X hM hn ho (by simp) hrun] at hω
    exact fails_card h X hn ho (by simp [gkpAttrs]) hd (Finset.filter_subset _ _) hω
  -- single qubits
  obtain ⟨-, ⟨cs, hok⟩, hpieces⟩ := Noise.macro_pieces (μ := μ) hM.noSwap hd0 .start [] zr (List.replicate (2 * M₀.layer.pts.length) 0) zr zr
    (by simp) (by simp) hrun
  obtain ⟨cs', hok', hf', -, -, -, h6, -⟩ := hM.ok
  have hh : Noise.MacroHist M₀ 1 (run fun _ => 0) := Noise.MacroHist.apply _ .start (by simp [Noise.macroRnd]) (by simp [Noise.macroRnd])
    (hrun fun _ => 0)
  set E : V → Set Ω := fun x => {ω | (run fun j => Z j ω).redBit (Noise.toPt x) ≠ (run fun _ => 0).redBit (Noise.toPt x)} with hE
  have hf0 : ∀ v, 0 ≤ Noise.flipProb v ∧ Noise.flipProb v ≤ 1 := fun v => ⟨measureReal_nonneg, measureReal_le_one⟩
  have hEx : ∀ x ∈ code.syndrome.toFinset, μ.real (E x) ≤ Noise.flipProb (2 * delta) + 4 * Noise.flipProb delta := by
    intro x hx
    have hx' := h.syndrome_node (List.mem_toFinset.1 hx)
    rw [hE]
    beta_reduce
    rw [hlaw x hx']
    set l := ((run fun _ => 0).gkpPlanets (Noise.toPt x)).length with hl
    have hl4 : l ≤ 4 := by
      obtain ⟨hH, hfr⟩ := hh.inv hok' hf'
      obtain ⟨ps, gs, hi⟩ := hH.inv hf'
      have hok2 := hok'.transport hi hfr
      obtain ⟨k, hk, hkx⟩ := List.getElem_of_mem ((h6 (Noise.toPt x)).2 ⟨x, hx', rfl⟩)
      have hp := (hok2.links_perm hk (0, 0, 0)).length_eq
      rw [List.length_map, hkx] at hp
      refine (List.length_filter_le _ _).trans ((List.length_filter_le _ _).trans ?_)
      rw [← hp]
      exact (List.length_filterMap_le _ _).trans (by simp [Noise.row])
    have := (Noise.odd_le_sum (Noise.flipProb (2 * delta) :: List.replicate l (Noise.flipProb delta)) (by
      intro e he
      rcases List.mem_cons.1 he with rfl | he
      · exact hf0 _
      · rw [List.eq_of_mem_replicate he]; exact hf0 _)).2
    simp only [List.map_cons, List.prod_cons, List.map_replicate, List.prod_replicate, List.sum_cons, List.sum_replicate, nsmul_eq_mul]
      at this
    have h4 : (l : ℝ) * Noise.flipProb delta ≤ 4 * Noise.flipProb delta :=
      mul_le_mul_of_nonneg_right (by exact_mod_cast hl4) (hf0 _).1
    linarith
  have hcard : ∀ ω, ((S ω).card : ℝ) = ∑ x ∈ code.syndrome.toFinset, (E x).indicator (fun _ => (1 : ℝ)) ω := by
    intro ω
    rw [hS]
    beta_reduce
    rw [Finset.card_filter]
    push_cast
    refine Finset.sum_congr rfl fun x _ => ?_
    rw [Set.indicator_apply]
    rfl
  have hEm : ∀ x ∈ code.syndrome.toFinset, MeasurableSet (E x) := by
    intro x hx
    have hx' := h.syndrome_node (List.mem_toFinset.1 hx)
    obtain ⟨l, g, W, -, -, -, hW, -, -, hodd, -⟩ := hpieces hZ x hx' fun y hy => hM.all_gkp hh le_rfl (List.mem_filter.1 hy).1
    have : E x = {ω | (∑ i, Gkp.gkpBinner (W i ω)) % 2 = 1} := by
      ext ω
      exact (hodd ω).trans (Gkp.oddBits_iff _)
    rw [this]
    have hm : Measurable fun ω => ∑ i, Gkp.gkpBinner (W i ω) :=
      Finset.measurable_sum _ fun i _ => Gkp.measurable_binner.comp (hW i)
    exact hm (DiscreteMeasurableSpace.forall_measurableSet {f : ℤ | f % 2 = 1})
  have hint : ∀ x ∈ code.syndrome.toFinset, Integrable (fun ω => (E x).indicator (fun _ => (1 : ℝ)) ω) μ := fun x hx =>
    (integrable_const (1 : ℝ)).indicator (hEm x hx)
  have hmarkov := mul_meas_ge_le_integral_of_nonneg (μ := μ) (f := fun ω => ((S ω).card : ℝ)) (ae_of_all _ fun ω => by positivity)
    (by simp_rw [hcard]; exact integrable_finsetSum _ hint) (((d + 1) / 2 : ℕ) : ℝ)
  have hle : μ.real {ω | SingleTrial X code name o M₀ (R ω) 1} ≤ μ.real {ω | (((d + 1) / 2 : ℕ) : ℝ) ≤ ((S ω).card : ℝ)} := by
    refine measureReal_mono ?_
    intro ω hω
    exact_mod_cast hfail ω hω
  refine (mul_le_mul_of_nonneg_left hle (by positivity)).trans (hmarkov.trans ?_)
  simp_rw [hcard]
  rw [integral_finsetSum _ hint]
  have hlen : code.syndrome.toFinset.card = code.syndrome.length := List.toFinset_card_of_nodup h.ok.1.syndromeNd
  rw [← hlen, ← nsmul_eq_mul]
  refine Finset.sum_le_card_nsmul _ _ _ fun x hx => ?_
  have : ∫ ω, (E x).indicator (fun _ => (1 : ℝ)) ω ∂μ = μ.real (E x) := by
    rw [integral_indicator_const (1 : ℝ) (hEm x hx), smul_eq_mul, mul_one]
  rw [this]
  exact hEx x hx

/-- A Gaussian bound on the probability of a wrong bit. -/
theorem flipProb_le {v : ℝ} (hv : 0 < v) : Noise.flipProb v ≤ 2 * Real.exp (-Real.pi / (8 * v)) := by
  set ν := gaussianReal 0 v.toNNReal with hν
  have hc : ((v.toNNReal : NNReal) : ℝ) = v := Real.coe_toNNReal v hv.le
  have hsub : HasSubgaussianMGF (fun x : ℝ => x) v.toNNReal ν := by
    refine ⟨fun t => integrable_exp_mul_gaussianReal t, fun t => le_of_eq ?_⟩
    rw [hν, mgf_fun_id_gaussianReal]
    simp
  have hw : (0 : ℝ) ≤ √Real.pi / 2 := by positivity
  have he : -(√Real.pi / 2) ^ 2 / (2 * ((v.toNNReal : NNReal) : ℝ)) = -Real.pi / (8 * v) := by
    rw [hc, div_pow, Real.sq_sqrt Real.pi_pos.le]
    field_simp
    norm_num
  have h1 := hsub.measure_ge_le hw
  have h2 := hsub.neg.measure_ge_le hw
  rw [he] at h1 h2
  have hset : {x | Gkp.gkpBinner x ≠ 0} ⊆ {x : ℝ | √Real.pi / 2 ≤ x} ∪ {x : ℝ | √Real.pi / 2 ≤ -x} := by
    intro x hx
    by_contra hc
    simp only [Set.mem_union, Set.mem_ofPred_eq, not_or, not_le] at hc
    apply hx
    have := (Gkp.binner_bin 0 (f := x) ⟨by unfold Gkp.binWidth; linarith [hc.2], by unfold Gkp.binWidth; linarith [hc.1]⟩)
    rw [Int.cast_zero, zero_mul, zero_add] at this
    change (Gkp.gkpBinnerFrac x).1 = 0
    rw [this]
    rfl
  unfold Noise.flipProb
  refine (measureReal_mono hset).trans ((measureReal_union_le _ _).trans ?_)
  have h2' : ν.real {x : ℝ | √Real.pi / 2 ≤ -x} ≤ Real.exp (-Real.pi / (8 * v)) := h2
  linarith

/-- C74.  The bound of `C74_bound` in closed form. -/
theorem C74_small_noise (X : Libs) {code : Code} {delta : ℝ} {M₀ : Noise.Macro EGraph.Pt} (hM : Noise.OnPolarCode code delta none M₀)
    (hd0 : 0 < delta) {name : String} (hn : name = "MWPM" ∨ name = "UF") {o : Opts} (ho : o.method = "uniform")
    {R : Ω → Noise.MacroRnd} (hr : ∀ ω, MacroRndOk M₀ (R ω))
    (hZ : Noise.NormalIid (fun (j : Bool × ℕ) ω => if j.1 then (R ω).p.z j.2 else (R ω).q.z j.2) μ)
    {d : ℕ} (hd : ∀ i ∈ planesToCheck code.ec code.boundaries, d ≤ code.dims i) :
    ((d + 1) / 2 : ℕ) * μ.real {ω | SingleTrial X code name o M₀ (R ω) 1} ≤
      code.syndrome.length * (2 * Real.exp (-Real.pi / (16 * delta)) + 8 * Real.exp (-Real.pi / (8 * delta))) := by
  refine (C74_bound X hM hd0 hn ho hr hZ hd).trans ?_
  have h1 := flipProb_le (v := 2 * delta) (by positivity)
  have h2 := flipProb_le hd0
  rw [show 8 * (2 * delta) = 16 * delta by ring] at h1
  have : (0 : ℝ) ≤ code.syndrome.length := by positivity
  refine mul_le_mul_of_nonneg_left (by linarith) this

/-- Generators with any laws exist. -/
theorem macroIid_exists (M : Noise.Macro EGraph.Pt) (ν : Measure (List ℕ × (ℕ → ℝ) × (ℕ → ℝ) × (ℕ → ℝ))) [IsProbabilityMeasure ν] :
    ∃ (μ : Measure (ℕ × ℕ → List ℕ × (ℕ → ℝ) × (ℕ → ℝ) × (ℕ → ℝ))) (R : ℕ × ℕ → (ℕ × ℕ → List ℕ × (ℕ → ℝ) × (ℕ → ℝ) × (ℕ → ℝ)) →
      Noise.MacroRnd), IsProbabilityMeasure μ ∧ MacroIid R μ ∧ (∀ j ω, MacroRndOk M (R j ω)) ∧
      ((∀ᵐ d ∂ν, ∀ i ∈ d.1, i < M.layer.pts.length) → ∀ j, μ.map (fun ω => macroData (R j ω)) = ν) := by
  set N := M.layer.pts.length
  set g : List ℕ × (ℕ → ℝ) × (ℕ → ℝ) × (ℕ → ℝ) → List ℕ × (ℕ → ℝ) × (ℕ → ℝ) × (ℕ → ℝ) := fun d =>
    (d.1.filter fun i => decide (i < N), d.2) with hg
  have hgm : Measurable g := (Measurable.of_discrete.comp measurable_fst).prodMk measurable_snd
  set R : ℕ × ℕ → (ℕ × ℕ → List ℕ × (ℕ → ℝ) × (ℕ → ℝ) × (ℕ → ℝ)) → Noise.MacroRnd := fun j ω =>
    ⟨(ω j).1.filter fun i => decide (i < N), ⟨fun _ => 0, (ω j).2.1, fun _ => 0⟩, ⟨(ω j).2.2.1, fun _ => 0, fun _ => 0⟩,
      ⟨(ω j).2.2.2, fun _ => 0, fun _ => 0⟩, List.replicate (2 * N) 0⟩ with hR
  have hd : ∀ j ω, macroData (R j ω) = g (ω j) := fun j ω => rfl
  set μ := Measure.infinitePi fun _ : ℕ × ℕ => ν with hμ
  have hmap : ∀ j, μ.map (fun ω => macroData (R j ω)) = ν.map g := by
    intro j
    have : (fun ω => macroData (R j ω)) = g ∘ fun ω => ω j := rfl
    rw [this, ← Measure.map_map hgm (measurable_pi_apply j), hμ, Measure.infinitePi_map_eval]
  refine ⟨μ, R, inferInstance, ⟨fun j => hgm.comp (measurable_pi_apply j), ?_, fun j j' => by rw [hmap, hmap]⟩, fun j ω => ⟨?_, ?_⟩, ?_⟩
  · exact iIndepFun_infinitePi (P := fun _ : ℕ × ℕ => ν) (X := fun _ => g) (fun _ => hgm)
  · intro i hi
    simpa using (List.mem_filter.1 hi).2
  · simp [hR, N]
  · intro hae j
    rw [hmap]
    have : g =ᵐ[ν] id := by
      filter_upwards [hae] with d hd'
      rw [hg]
      simp only [id]
      rw [List.filter_eq_self.2 fun i hi => by simpa using hd' i hi]
    rw [Measure.map_congr this, Measure.map_id]

-- a code of any kind with alternating polarity and swap-outs: for squeezed modes, positions and deviates of any law, the number of errors of 100 trials on 3 ranks is binomial
example (ec : Ec) (b : Boundaries) (ν : Measure (List ℕ × (ℕ → ℝ) × (ℕ → ℝ) × (ℕ → ℝ))) [IsProbabilityMeasure ν] :
    ∃ (Ω : Type) (_ : MeasurableSpace Ω) (μ : Measure Ω) (code : Code) (X : Libs) (M₀ : Noise.Macro EGraph.Pt) (R : ℕ × ℕ → Ω → Noise.MacroRnd)
      (p : ℝ), Noise.OnPolarCode code (1 / 10) (some (1 / 4)) M₀ ∧ (∃ o, surfaceCode o ec b (fun _ => 3) (some alternatingPolarity) = some code) ∧ code.ec = ec ∧ code.boundaries = b ∧ ∀ k : ℕ,
      μ.real {ω | ∃ err, monteCarlo (ecTrial X code "UF" {} macroModel) 100 3
        (fun r => ((M₀, fun k => R (r, k) ω), fun _ => none)) = some err ∧ err 0 = k} = Nat.choose 100 k * p ^ k * (1 - p) ^ (100 - k) := by
  obtain ⟨o, code, M, ho, hM, h1, h2, -⟩ := Noise.onPolarCode_exists ec b (delta := 1 / 10) (by norm_num) (some (1 / 4)) _ (Or.inr rfl)
  obtain ⟨X, -⟩ := libs_exist .networkx
  obtain ⟨μ, R, hμ, hR, hok, -⟩ := macroIid_exists M ν
  exact ⟨_, _, μ, code, X, M, R, _, hM, ⟨o, ho⟩, h1, h2, fun k => C74_binomial X hM (Or.inr rfl) rfl 100 (by norm_num) hR hok k rfl⟩

-- and normal deviates for the bound
example (ec : Ec) (b : Boundaries) : ∃ (Ω : Type) (_ : MeasurableSpace Ω) (μ : Measure Ω) (code : Code) (X : Libs) (M₀ : Noise.Macro EGraph.Pt)
    (R : Ω → Noise.MacroRnd), Noise.OnPolarCode code (1 / 50) none M₀ ∧ (∃ o, surfaceCode o ec b (fun _ => 3) (some alternatingPolarity) = some code) ∧ code.ec = ec ∧ code.boundaries = b ∧
    ((2 + 1) / 2 : ℕ) * μ.real {ω | SingleTrial X code "MWPM" {} M₀ (R ω) 1} ≤
      code.syndrome.length * (2 * Real.exp (-Real.pi / (16 * (1 / 50))) + 8 * Real.exp (-Real.pi / (8 * (1 / 50)))) := by
  obtain ⟨Ω, m, μ, hp, Z, hZ⟩ := Noise.normalIid_exists (Bool × ℕ)
  obtain ⟨o, code, M, ho, hM, h1, h2, -⟩ := Noise.onPolarCode_exists ec b (delta := 1 / 50) (by norm_num) none _ (Or.inr rfl)
  obtain ⟨X, -⟩ := libs_exist .networkx
  refine ⟨Ω, m, μ, code, X, M, fun ω => ⟨[], ⟨fun _ => 0, fun _ => 0, fun _ => 0⟩, ⟨fun i => Z (true, i) ω, fun _ => 0, fun _ => 0⟩,
    ⟨fun i => Z (false, i) ω, fun _ => 0, fun _ => 0⟩, List.replicate (2 * M.layer.pts.length) 0⟩, hM, ⟨o, ho⟩, h1, h2,
    C74_small_noise X hM (by norm_num) (Or.inl rfl) rfl (fun ω => ⟨by simp, by simp⟩) ?_ (d := 2) ?_⟩
  · convert hZ using 3 with j ω
    rcases j with ⟨_ | _, i⟩ <;> rfl
  · intro i _
    exact (SurfaceCode.IsCode.ok hM.valid).2 i

end Flamingpy.Trial
