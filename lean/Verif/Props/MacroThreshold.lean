import Verif.Proofs.MacroTail

/-!
# C78: a threshold for the noise of a `CVMacroLayer`, with swap-outs

If every mode is independently squeezed with probability `p`, and the states have the noise `delta`, then all bits of a set of `m` qubits are
flipped with a probability of at most `(macroRate delta + 4 p) ^ m`.  Together with C76 this bounds the failure probability of the
minimum weight decoder.
-/

namespace Flamingpy.Trial

open Flamingpy Flamingpy.SurfaceCode Flamingpy.UnionFind Flamingpy.Weights Flamingpy.Sim MeasureTheory ProbabilityTheory Filter

/-- The deviates of the two measurements of a call of `apply_noise`. -/
def deviates (r : Noise.MacroRnd) (j : Bool × ℕ) : ℝ := if j.1 then r.p.z j.2 else r.q.z j.2

theorem macroOk_unique {M : Noise.Macro EGraph.Pt} {cs cs' : List EGraph.Pt} (h : Noise.MacroOk M cs) (h' : Noise.MacroOk M cs') : cs = cs' := by
  have hl : cs.length = cs'.length := by
    have := h.len
    rw [h'.len] at this
    omega
  refine List.ext_getElem? fun k => ?_
  by_cases hk : k < cs.length
  · obtain ⟨p, a1, -, a2⟩ := h.get (i := 4 * k) (by omega)
    have b2 := h'.centre _ _ a1
    rw [Nat.mul_div_cancel_left k (by norm_num)] at a2 b2
    rw [a2, b2]
  · rw [List.getElem?_eq_none (by omega), List.getElem?_eq_none (by omega)]

/-- A single trial fails if the decoder fails on the flips. -/
theorem single_fails (X : Libs) {code : Code} {delta : ℝ} {pSwap : Option ℝ} {M₀ : Noise.Macro EGraph.Pt}
    (hM : Noise.OnPolarCode code delta pSwap M₀) {name : String} (hn : name = "MWPM" ∨ name = "UF") {o : Opts} (ho : o.method = "uniform")
    {cs : List EGraph.Pt} (hok : Noise.MacroOk M₀ cs) {r : Noise.MacroRnd} (hr : MacroRndOk M₀ r) :
    SingleTrial X code name o M₀ r 1 ↔ Fails X code name o (macroAttrs M₀ cs r.draw) (macroFlips code M₀ cs (macroData r)) := by
  classical
  obtain ⟨cs', hok', hc⟩ := macro_count X hM
  obtain rfl := macroOk_unique hok hok'
  obtain ⟨err, f1, f2⟩ := hc hn ho 1 one_pos (fun _ _ => r) (fun _ _ => hr)
  unfold SingleTrial
  rw [f1]
  simp only [Option.some.injEq, exists_eq_left']
  rw [f2]
  by_cases hF : Fails X code name o (macroAttrs M₀ cs r.draw) (macroFlips code M₀ cs (macroData r)) <;> simp [hF, List.range_succ]

variable {Ω : Type*} [MeasurableSpace Ω] {μ : Measure Ω}

theorem tail_pow {delta : ℝ} (hd : 0 < delta) {Z : Bool × ℕ → Ω → ℝ} (hZ : Noise.NormalIid Z μ) {I : Finset (Bool × ℕ)} {m : ℕ}
    (hI : I.card ≤ 13 * m) : μ.real {ω | m * (Real.pi / (16 * delta)) ≤ ∑ j ∈ I, Z j ω ^ 2} ≤ macroRate delta ^ m := by
  refine (hZ.sq_tail I _).trans ?_
  have h2 : (1 : ℝ) ≤ √2 := Real.one_le_sqrt.2 (by norm_num)
  have e13 : √2 ^ 13 = 64 * √2 := by
    have : √2 ^ 2 = 2 := Real.sq_sqrt (by norm_num)
    calc √2 ^ 13 = (√2 ^ 2) ^ 6 * √2 := by ring
      _ = 64 * √2 := by rw [this]; norm_num
  have h4 : √2 ^ I.card ≤ (64 * √2) ^ m := by
    rw [← e13, ← pow_mul]
    exact pow_le_pow_right₀ h2 hI
  refine (mul_le_mul_of_nonneg_left h4 (Real.exp_pos _).le).trans (le_of_eq ?_)
  unfold macroRate
  rw [mul_pow _ (Real.exp _), ← Real.exp_nat_mul, mul_comm]
  congr 2
  field_simp
  ring

/-- The modes in GKP states, by the set of drawn indices. -/
theorem macroG_set {M₀ : Noise.Macro EGraph.Pt} {p : ℝ} (hp : M₀.layer.pSwap = some p) (draw : List ℕ) :
    macroG M₀ draw = fun i => decide (i ∉ Noise.modeSet p M₀.layer.pts.length draw.toFinset) := by
  funext i
  have hiff : i ∈ Noise.nextP M₀.layer draw [] ↔ i ∈ Noise.modeSet p M₀.layer.pts.length draw.toFinset := by
    unfold Noise.nextP Noise.modeSet Noise.swaps
    rw [hp]
    by_cases h0 : p = 0
    · simp [h0]
    · by_cases h1 : p = 1
      · simp [h1]
      · simp [h0, h1]
  unfold macroG Noise.gkpSet
  rw [decide_eq_decide, hiff]

/-- C78.  All bits in `S` are flipped, or next to squeezed micronodes, with a probability of at most `(macroRate delta + 4 p) ^ S.card`. -/
theorem macro_bad_le {code : Code} {delta p : ℝ} {M₀ : Noise.Macro EGraph.Pt} (hM : Noise.OnPolarCode code delta (some p) M₀) (hd : 0 < delta)
    (h0 : 0 ≤ p) {cs : List EGraph.Pt} (hok : Noise.MacroOk M₀ cs) {J : Type*} {num : J → Ω → ℕ} {choice : J → Ω → ℕ → List ℕ}
    (hC : Noise.SwapRng M₀.layer.pts.length p num choice μ) (j : J) {R : Ω → Noise.MacroRnd}
    (hdraw : ∀ ω, (R ω).draw = Noise.squeezedDraw (num j ω) (choice j ω)) (hZ : Noise.NormalIid (fun i ω => deviates (R ω) i) μ)
    (hind : IndepFun (fun ω => (R ω).draw) (fun ω => deviates (R ω)) μ) {S : Finset V} (hS : ∀ x ∈ S, x ∈ code.syndrome) :
    μ.real {ω | ∀ x ∈ S, x ∈ macroFlips code M₀ cs (macroData (R ω)) ∨ ∃ i ∈ Noise.nbList M₀ (cs.idxOf (Noise.toPt x)), i ∈ (R ω).draw} ≤
      (macroRate delta + 4 * p) ^ S.card := by
  classical
  have : IsProbabilityMeasure μ := hZ.indep.isProbabilityMeasure
  have hr0 : 0 ≤ macroRate delta := by unfold macroRate; positivity
  by_cases hp1 : p = 1
  · refine measureReal_le_one.trans (one_le_pow₀ ?_)
    rw [hp1]
    linarith
  have h := hM.valid
  obtain ⟨cs', hok', hf, hdel, hsw, hpi, h6, h7⟩ := hM.ok
  obtain rfl := macroOk_unique hok hok'
  set N := M₀.layer.pts.length with hN
  set D := Noise.drawSet num choice j with hD
  have hSn : ∀ x ∈ S, x ∈ PyDict.keys code.graph.nodes := fun x hx => h.syndrome_node (hS x hx)
  set kx : V → ℕ := fun x => cs.idxOf (Noise.toPt x) with hkx
  have hk : ∀ x ∈ S, kx x < cs.length := fun x hx => List.idxOf_lt_length_of_mem ((h6 _).2 ⟨x, hSn x hx, rfl⟩)
  have hinjk : ∀ x ∈ S, ∀ y, kx x = kx y → x = y := fun x hx y e =>
    Noise.toPt_inj ((List.idxOf_inj ((h6 _).2 ⟨x, hSn x hx, rfl⟩)).1 e)
  set nb : V → Finset ℕ := fun x => (Noise.nbList M₀ (kx x)).toFinset with hnb
  set good : Finset ℕ → Finset V := fun A => S.filter fun x => ∀ i ∈ nb x, i ∉ A with hgood
  set E : Set Ω := {ω | ∀ x ∈ S, x ∈ macroFlips code M₀ cs (macroData (R ω)) ∨ ∃ i ∈ Noise.nbList M₀ (cs.idxOf (Noise.toPt x)), i ∈ (R ω).draw} with hE
  -- for every pattern of states
  have hA : ∀ A ∈ (Finset.range N).powerset, μ.real (E ∩ D ⁻¹' {A}) ≤ p ^ A.card * (1 - p) ^ (N - A.card) * macroRate delta ^ (good A).card := by
    intro A hA
    set G : ℕ → Bool := fun i => decide (i ∉ Noise.modeSet p N A) with hG
    have hmode : ∀ i, i ∈ Noise.modeSet p N A → i ∈ A := by
      intro i hi
      unfold Noise.modeSet at hi
      rw [if_neg hp1] at hi
      split_ifs at hi
      · simp at hi
      · exact hi
    obtain ⟨I, hI, hT⟩ := Noise.tail_set h hok hM.perfect (by rw [hdel]; exact hd) h6 h7 G (good A)
      (fun x hx => hSn x (Finset.mem_filter.1 hx).1) (fun x hx i hi => by
        rw [hG, decide_eq_true_eq]
        exact fun hc => (Finset.mem_filter.1 hx).2 i (List.mem_toFinset.2 hi) (hmode i hc))
    have hsub : E ∩ D ⁻¹' {A} ⊆ (fun ω => (R ω).draw) ⁻¹' {l | l.toFinset = A} ∩
        (fun ω => deviates (R ω)) ⁻¹' {z | (good A).card * (Real.pi / (16 * delta)) ≤ ∑ i ∈ I, z i ^ 2} := by
      rintro ω ⟨h1, h2⟩
      have hdA : (R ω).draw.toFinset = A := by rw [hdraw]; exact h2
      refine ⟨hdA, ?_⟩
      have := hT (R ω).means.u (deviates (R ω)) fun x hx => by
        have h3 := (Finset.mem_filter.1 ((h1 x (Finset.mem_filter.1 hx).1).resolve_right fun ⟨i, hi, hid⟩ =>
          (Finset.mem_filter.1 hx).2 i (List.mem_toFinset.2 hi) (by rw [← hdA]; exact List.mem_toFinset.2 hid))).2
        change Noise.flipInt _ _ (macroG M₀ (R ω).draw) _ _ (R ω).means.u (R ω).p.z (R ω).q.z _ % 2 = 1 at h3
        rw [macroG_set hsw, hdA] at h3
        exact h3
      rw [hdel] at this
      exact this
    have hm : MeasurableSet {z : Bool × ℕ → ℝ | (good A).card * (Real.pi / (16 * delta)) ≤ ∑ i ∈ I, z i ^ 2} :=
      measurableSet_le measurable_const (by fun_prop)
    refine (measureReal_mono hsub).trans ?_
    rw [Noise.indep_real hind (MeasurableSet.of_discrete) hm]
    have h1 : μ.real ((fun ω => (R ω).draw) ⁻¹' {l | l.toFinset = A}) = p ^ A.card * (1 - p) ^ (N - A.card) := by
      rw [← hC.law j (Finset.mem_powerset.1 hA)]
      congr 1
      ext ω
      simp only [Set.mem_preimage, Set.mem_ofPred_eq, Noise.drawSet, hdraw]
    rw [h1]
    have hw : 0 ≤ p ^ A.card * (1 - p) ^ (N - A.card) := by rw [← h1]; exact measureReal_nonneg
    exact mul_le_mul_of_nonneg_left (tail_pow hd hZ hI) hw
  have hw : ∀ A ∈ (Finset.range N).powerset, 0 ≤ p ^ A.card * (1 - p) ^ (N - A.card) := by
    intro A hA
    rw [← hC.law j (Finset.mem_powerset.1 hA)]
    exact measureReal_nonneg
  have hEu : E ⊆ ⋃ A ∈ (Finset.range N).powerset, E ∩ D ⁻¹' {A} := by
    intro ω hω
    simp only [Set.mem_iUnion]
    exact ⟨D ω, Finset.mem_powerset.2 (hC.subset j ω), hω, rfl⟩
  refine (measureReal_mono hEu (measure_ne_top _ _)).trans ((measureReal_biUnion_finset_le _ _).trans ((Finset.sum_le_sum hA).trans ?_))
  have hle : ∀ A ∈ (Finset.range N).powerset, p ^ A.card * (1 - p) ^ (N - A.card) * macroRate delta ^ (good A).card ≤
      p ^ A.card * (1 - p) ^ (N - A.card) * ∏ x ∈ S, (macroRate delta + ∑ i ∈ nb x, if i ∈ A then (1 : ℝ) else 0) := by
    intro A hA
    refine mul_le_mul_of_nonneg_left ?_ (hw A hA)
    rw [← Finset.prod_const, hgood]
    simp only
    rw [Finset.prod_filter]
    refine Finset.prod_le_prod (fun x _ => by split_ifs <;> positivity) fun x _ => ?_
    have hs : 0 ≤ ∑ i ∈ nb x, if i ∈ A then (1 : ℝ) else 0 := Finset.sum_nonneg fun i _ => by split_ifs <;> norm_num
    split_ifs with hg
    · linarith
    · push Not at hg
      obtain ⟨i, hi, hiA⟩ := hg
      have := Finset.single_le_sum (f := fun i => if i ∈ A then (1 : ℝ) else 0) (fun i _ => by split_ifs <;> norm_num) hi
      rw [if_pos hiA] at this
      linarith
  refine (Finset.sum_le_sum hle).trans ?_
  rw [Noise.swap_product N S nb]
  · rw [← Finset.prod_const]
    refine Finset.prod_le_prod (fun x _ => by positivity) fun x _ => ?_
    have h4 : ((nb x).card : ℝ) ≤ 4 := by
      exact_mod_cast (List.toFinset_card_le _).trans (Noise.nbList_length M₀ (kx x))
    nlinarith
  · intro x hx i hi
    have := (hok.nbList_get (hk x hx) (List.mem_toFinset.1 hi)).1
    rw [Finset.mem_range, hN, hok.len]
    exact this
  · intro x hx y hy i hi hi'
    exact hinjk x hx y (hok.nbList_disj (fun _ _ => hM.nbrs_comm) (hk x hx) (hk y hy) (List.mem_toFinset.1 hi) (List.mem_toFinset.1 hi'))

/-- C78.  All bits in `S` are flipped with a probability of at most `(macroRate delta + 4 p) ^ S.card`. -/
theorem macro_flips_le {code : Code} {delta p : ℝ} {M₀ : Noise.Macro EGraph.Pt} (hM : Noise.OnPolarCode code delta (some p) M₀) (hd : 0 < delta)
    (h0 : 0 ≤ p) {cs : List EGraph.Pt} (hok : Noise.MacroOk M₀ cs) {J : Type*} {num : J → Ω → ℕ} {choice : J → Ω → ℕ → List ℕ}
    (hC : Noise.SwapRng M₀.layer.pts.length p num choice μ) (j : J) {R : Ω → Noise.MacroRnd}
    (hdraw : ∀ ω, (R ω).draw = Noise.squeezedDraw (num j ω) (choice j ω)) (hZ : Noise.NormalIid (fun i ω => deviates (R ω) i) μ)
    (hind : IndepFun (fun ω => (R ω).draw) (fun ω => deviates (R ω)) μ) (S : Finset V) :
    μ.real {ω | S ⊆ macroFlips code M₀ cs (macroData (R ω))} ≤ (macroRate delta + 4 * p) ^ S.card := by
  classical
  have : IsProbabilityMeasure μ := hZ.indep.isProbabilityMeasure
  by_cases hS : ∀ x ∈ S, x ∈ code.syndrome
  · refine (measureReal_mono (fun ω hω => ?_) (measure_ne_top _ _)).trans (macro_bad_le hM hd h0 hok hC j hdraw hZ hind hS)
    exact fun x hx => Or.inl (hω hx)
  · have : {ω | S ⊆ macroFlips code M₀ cs (macroData (R ω))} = ∅ := by
      ext ω
      simp only [Set.mem_ofPred_eq, Set.mem_empty_iff_false, iff_false]
      intro hc
      exact hS fun x hx => List.mem_toFinset.1 (Finset.mem_filter.1 (hc hx)).1
    have hr0 : 0 ≤ macroRate delta := by unfold macroRate; positivity
    rw [this, measureReal_empty]
    positivity

/-- C78.  The failure probability of the minimum weight decoder with unit weights, for a trial with a `CVMacroLayer` whose generator behaves as
documented: `binomial` and `choice` draw the squeezed modes, the deviates of the measurements are normal, and independent of the former.  (The
numbers for the positions of the states may have any values.) -/
theorem C78_bound (X : Libs) {code : Code} {delta p : ℝ} {M₀ : Noise.Macro EGraph.Pt} (hM : Noise.OnPolarCode code delta (some p) M₀) (hd : 0 < delta)
    (h0 : 0 ≤ p) (hr : 64 * √2 * Real.exp (-Real.pi / (64 * delta)) + 4 * p < 1 / 100) {o : Opts} (ho : o.method = "uniform") {J : Type*}
    {num : J → Ω → ℕ} {choice : J → Ω → ℕ → List ℕ} (hC : Noise.SwapRng M₀.layer.pts.length p num choice μ) (j : J) {R : Ω → Noise.MacroRnd}
    (hdraw : ∀ ω, (R ω).draw = Noise.squeezedDraw (num j ω) (choice j ω)) (hlen : ∀ ω, (R ω).empty.length = 2 * M₀.layer.pts.length)
    (hZ : Noise.NormalIid (fun i ω => deviates (R ω) i) μ) (hind : IndepFun (fun ω => (R ω).draw) (fun ω => deviates (R ω)) μ)
    {d : ℕ} (hdim : ∀ i ∈ planesToCheck code.ec code.boundaries, d ≤ code.dims i) :
    μ.real {ω | SingleTrial X code "MWPM" o M₀ (R ω) 1} ≤
      2 * code.syndrome.length / 5 * ((10 * √(macroRate delta + 4 * p)) ^ d / (1 - 10 * √(macroRate delta + 4 * p))) := by
  have : IsProbabilityMeasure μ := hZ.indep.isProbabilityMeasure
  have h := hM.valid
  have hr0 : 0 ≤ macroRate delta + 4 * p := by unfold macroRate; positivity
  obtain ⟨cs, hok, -⟩ := hM.ok
  refine le_trans ?_ (halves_sum h (Real.sqrt_nonneg _) (sqrt_small hr) (Real.sq_sqrt hr0).symm d)
  have hsub : {ω | SingleTrial X code "MWPM" o M₀ (R ω) 1} ⊆ ⋃ S ∈ halves code d, {ω | S ⊆ macroFlips code M₀ cs (macroData (R ω))} := by
    intro ω hω
    have hrok : MacroRndOk M₀ (R ω) := ⟨fun i hi => by
      rw [hdraw] at hi
      exact (hC.arrangement j ω _ (hC.range j ω)).2.2 i hi, hlen ω⟩
    have hω := (single_fails X hM (Or.inl rfl) ho hok hrok).1 hω
    obtain ⟨S, hS, hSB⟩ := half_flipped h X ho hdim hω
    simp only [Set.mem_iUnion]
    exact ⟨S, hS, hSB⟩
  refine (measureReal_mono hsub (measure_ne_top _ _)).trans ((measureReal_biUnion_finset_le _ _).trans ?_)
  exact Finset.sum_le_sum fun S _ => macro_flips_le hM hd h0 hok hC j hdraw hZ hind S

/-- The generators of a call of `apply_noise` of a layer with `N` modes and swap-out probability `p` behave as documented. -/
def MacroRng (N : ℕ) (p : ℝ) (R : Ω → Noise.MacroRnd) (μ : Measure Ω) : Prop :=
  (∃ (num : Unit → Ω → ℕ) (choice : Unit → Ω → ℕ → List ℕ), Noise.SwapRng N p num choice μ ∧
    ∀ ω, (R ω).draw = Noise.squeezedDraw (num () ω) (choice () ω)) ∧ (∀ ω, (R ω).empty.length = 2 * N) ∧
  Noise.NormalIid (fun i ω => deviates (R ω) i) μ ∧ IndepFun (fun ω => (R ω).draw) (fun ω => deviates (R ω)) μ

/-- C78.  Threshold for the noise of the states and the swap-out probability: the failure probability goes to zero as the code grows. -/
theorem C78_threshold {delta p : ℝ} (hd : 0 < delta) (h0 : 0 ≤ p) (hr : 64 * √2 * Real.exp (-Real.pi / (64 * delta)) + 4 * p < 1 / 100) (m : ℕ)
    {ε : ℝ} (hε : 0 < ε) : ∃ d₀ : ℕ, ∀ d, d₀ ≤ d → ∀ (code : Code) (M₀ : Noise.Macro EGraph.Pt), Noise.OnPolarCode code delta (some p) M₀ →
    (∀ i, d ≤ code.dims i ∧ code.dims i ≤ m * d) → ∀ (X : Libs) (o : Opts), o.method = "uniform" →
    ∀ {Ω : Type} [MeasurableSpace Ω] (μ : Measure Ω) (R : Ω → Noise.MacroRnd), MacroRng M₀.layer.pts.length p R μ →
      μ.real {ω | SingleTrial X code "MWPM" o M₀ (R ω) 1} < ε := by
  obtain ⟨d₀, hd₀⟩ := rate_limit (Real.sqrt_nonneg (macroRate delta + 4 * p)) (sqrt_small hr) m hε
  refine ⟨d₀, fun d hdd code M₀ hM hdims X o ho Ω _ μ R hR => ?_⟩
  obtain ⟨⟨num, choice, hC, hdraw⟩, hlen, hZ, hind⟩ := hR
  exact (C78_bound X hM hd h0 hr ho hC () hdraw hlen hZ hind fun i _ => (hdims i).1).trans_lt (hd₀ d hdd code hM.valid hdims)

/-- Noise and swap-outs below the threshold. -/
theorem macroRate_small {delta p : ℝ} (hd : 0 < delta) (h1 : delta ≤ 1 / 205) (hp : p ≤ 1 / 1000) :
    64 * √2 * Real.exp (-Real.pi / (64 * delta)) + 4 * p < 1 / 100 := by
  have h2 : √2 < 1.415 := by
    rw [Real.sqrt_lt' (by norm_num)]
    norm_num
  have h3 : -Real.pi / (64 * delta) ≤ -10 := by
    rw [div_le_iff₀ (by positivity)]
    nlinarith [Real.pi_gt_d4]
  have h4 : Real.exp (-10) < 1 / 20000 := by
    rw [Real.exp_neg, inv_lt_comm₀ (Real.exp_pos _) (by norm_num), one_div, inv_inv]
    have h5 : (2.7182818283 : ℝ) < Real.exp 1 := Real.exp_one_gt_d9
    calc (20000 : ℝ) < 2.7182818283 ^ 10 := by norm_num
      _ < Real.exp 1 ^ 10 := pow_lt_pow_left₀ h5 (by norm_num) (by norm_num)
      _ = Real.exp 10 := by rw [← Real.exp_nat_mul]; norm_num
  have h6 := (Real.exp_le_exp.2 h3).trans_lt h4
  have h7 : 0 < √2 := by positivity
  have h8 := Real.exp_pos (-Real.pi / (64 * delta))
  nlinarith

/-- C78.  Simulations with a `CVMacroLayer` with `delta` at most 1/205 and swap-out probability at most 1/1000: for large codes, whatever the number of
trials and ranks, the expected error rate is below `ε`. -/
theorem C78_simulation {delta p : ℝ} (hd : 0 < delta) (h1 : delta ≤ 1 / 205) (h0 : 0 ≤ p) (hp : p ≤ 1 / 1000) {ε : ℝ} (hε : 0 < ε) :
    ∃ d₀ : ℕ, ∀ d, d₀ ≤ d → ∀ (code : Code) (M₀ : Noise.Macro EGraph.Pt), Noise.OnPolarCode code delta (some p) M₀ → (∀ i, code.dims i = d) →
    ∀ (X : Libs) (o : Opts), o.method = "uniform" → ∀ {Ω : Type} [MeasurableSpace Ω] (μ : Measure Ω) (R : ℕ × ℕ → Ω → Noise.MacroRnd),
    (∀ j, MacroRng M₀.layer.pts.length p (R j) μ) → (∀ j, Measurable fun ω => macroData (R j ω)) →
    (∀ j j', μ.map (fun ω => macroData (R j ω)) = μ.map (fun ω => macroData (R j' ω))) → ∀ (trials size : ℕ), 0 < size →
    ∀ errors : Ω → ℤ, (∀ ω, ∃ err, monteCarlo (ecTrial X code "MWPM" o macroModel) trials size
      (fun r => ((M₀, fun k => R (r, k) ω), fun _ => none)) = some err ∧ errors ω = err 0) →
    ∫ ω, (errors ω : ℝ) ∂μ ≤ trials * ε := by
  obtain ⟨d₀, hd₀⟩ := C78_threshold hd h0 (macroRate_small hd h1 hp) 1 hε
  refine ⟨d₀, fun d hdd code M₀ hM hdims X o ho Ω _ μ R hR hm hi trials size hs errors he => ?_⟩
  have : IsProbabilityMeasure μ := (hR (0, 0)).2.2.1.indep.isProbabilityMeasure
  have hok : ∀ j ω, MacroRndOk M₀ (R j ω) := fun j ω => by
    obtain ⟨⟨num, choice, hC, hdraw⟩, hlen, -⟩ := hR j
    exact ⟨fun i hi => by rw [hdraw] at hi; exact (hC.arrangement () ω _ (hC.range () ω)).2.2 i hi, hlen ω⟩
  rw [C74_mean X hM (Or.inl rfl) ho trials hs hm hi hok errors he]
  exact mul_le_mul_of_nonneg_left
    (hd₀ d hdd code M₀ hM (fun i => by rw [hdims i, one_mul]; exact ⟨le_rfl, le_rfl⟩) X o ho μ (R (0, 0)) (hR (0, 0))).le (by positivity)

/-! ### The hypotheses can be met -/

/-- Generators that behave as documented exist, for any number of independent calls. -/
theorem macroRng_exists (N : ℕ) {p : ℝ} (h0 : 0 ≤ p) (h1 : p ≤ 1) : ∃ (Ω : Type) (_ : MeasurableSpace Ω) (μ : Measure Ω)
    (R : ℕ × ℕ → Ω → Noise.MacroRnd), (∀ j, MacroRng N p (R j) μ) ∧ (∀ j, Measurable fun ω => macroData (R j ω)) ∧
    (iIndepFun (fun j ω => macroData (R j ω)) μ) ∧ ∀ j j', μ.map (fun ω => macroData (R j ω)) = μ.map (fun ω => macroData (R j' ω)) := by
  obtain ⟨Ω₁, m₁, μ₁, hp₁, Z, hZ⟩ := Noise.normalIid_exists (Bool × ℕ)
  obtain ⟨Ω₂, m₂, μ₂, hp₂, num, choice, hC⟩ := Noise.swapRng_exists Unit N h0 h1
  have hsnd : MeasurePreserving (Prod.snd : Ω₂ × Ω₁ → Ω₁) (μ₂.prod μ₁) μ₁ := measurePreserving_snd
  have hfst : MeasurePreserving (Prod.fst : Ω₂ × Ω₁ → Ω₂) (μ₂.prod μ₁) μ₂ := measurePreserving_fst
  have hmd : Measurable fun ω : Ω₂ => Noise.squeezedDraw (num () ω) (choice () ω) :=
    Noise.measurable_squeezedDraw.comp ((hC.measNum ()).prodMk (hC.measChoice ()))
  have hmz : Measurable fun (ω : Ω₁) (j : Bool × ℕ) => Z j ω := measurable_pi_lambda _ hZ.meas
  have hind : IndepFun (fun ω : Ω₂ × Ω₁ => Noise.squeezedDraw (num () ω.1) (choice () ω.1)) (fun ω j => Z j ω.2) (μ₂.prod μ₁) :=
    indepFun_prod hmd hmz
  set R₀ : Ω₂ × Ω₁ → Noise.MacroRnd := fun ω => ⟨Noise.squeezedDraw (num () ω.1) (choice () ω.1), ⟨fun _ => 0, fun _ => 0, fun _ => 0⟩,
    ⟨fun i => Z (true, i) ω.2, fun _ => 0, fun _ => 0⟩, ⟨fun i => Z (false, i) ω.2, fun _ => 0, fun _ => 0⟩, List.replicate (2 * N) 0⟩ with hR₀
  have hdev : ∀ ω, deviates (R₀ ω) = fun j => Z j ω.2 := fun ω => by
    funext j
    rcases j with ⟨_ | _, i⟩ <;> rfl
  have hm0 : Measurable fun ω => macroData (R₀ ω) := by
    refine (hmd.comp measurable_fst).prodMk (measurable_const.prodMk (Measurable.prodMk ?_ ?_))
    · exact measurable_pi_lambda _ fun i => (hZ.meas (true, i)).comp measurable_snd
    · exact measurable_pi_lambda _ fun i => (hZ.meas (false, i)).comp measurable_snd
  set μ := Measure.infinitePi fun _ : ℕ × ℕ => μ₂.prod μ₁ with hμ
  have hev : ∀ j, MeasurePreserving (fun ω : ℕ × ℕ → Ω₂ × Ω₁ => ω j) μ (μ₂.prod μ₁) := fun j =>
    ⟨measurable_pi_apply j, Measure.infinitePi_map_eval _ j⟩
  refine ⟨ℕ × ℕ → Ω₂ × Ω₁, inferInstance, μ, fun j ω => R₀ (ω j), fun j => ?_, fun j => hm0.comp (measurable_pi_apply j), ?_, fun j j' => ?_⟩
  · refine ⟨⟨fun _ ω => num () (ω j).1, fun _ ω => choice () (ω j).1, (hC.of_map (hfst.comp (hev j))), fun ω => rfl⟩, fun ω => by simp [hR₀], ?_, ?_⟩
    · simp_rw [hdev]
      exact hZ.of_map (hsnd.comp (hev j))
    · simp_rw [hdev]
      exact indepFun_of_map (hev j) (hmd.comp measurable_fst) (hmz.comp measurable_snd) hind
  · exact iIndepFun_infinitePi (P := fun _ : ℕ × ℕ => μ₂.prod μ₁) (X := fun _ ω => macroData (R₀ ω)) fun _ => hm0
  · have : ∀ j, μ.map (fun ω => macroData (R₀ (ω j))) = (μ₂.prod μ₁).map fun ω => macroData (R₀ ω) := fun j => by
      rw [← (hev j).map_eq, Measure.map_map hm0 (hev j).measurable]
      rfl
    rw [this, this]

-- codes of every size, layers on them with swap-outs, and simulations
example (d : ℕ) (hd : 2 ≤ d) (trials : ℕ) : ∃ (Ω : Type) (_ : MeasurableSpace Ω) (μ : Measure Ω) (R : ℕ × ℕ → Ω → Noise.MacroRnd) (code : Code)
    (M₀ : Noise.Macro EGraph.Pt) (X : Libs) (errors : Ω → ℤ), Noise.OnPolarCode code (1 / 205) (some (1 / 1000)) M₀ ∧ (∀ i, code.dims i = d) ∧
    (∃ o, surfaceCode o .primal .periodic (fun _ => d) (some alternatingPolarity) = some code) ∧
    (∀ j, MacroRng M₀.layer.pts.length (1 / 1000) (R j) μ) ∧ (∀ j, Measurable fun ω => macroData (R j ω)) ∧
    (∀ j j', μ.map (fun ω => macroData (R j ω)) = μ.map (fun ω => macroData (R j' ω))) ∧
    ∀ ω, ∃ err, monteCarlo (ecTrial X code "MWPM" {} macroModel) trials 2
      (fun r => ((M₀, fun k => R (r, k) ω), fun _ => none)) = some err ∧ errors ω = err 0 := by
  obtain ⟨code, h, hdim, -⟩ := C54_constructor_total idOrder .primal .periodic (dims := fun _ => d) (by simp [hd]) (some alternatingPolarity)
  obtain ⟨oriented, ho⟩ := Noise.oriented_exists code
  obtain ⟨M₀, -, hM, -⟩ := Noise.C56_constructor (Noise.polarity_unit _ (Or.inr rfl)) (dims := fun _ => d) (by simp [hd]) h ho (delta := 1 / 205) (by norm_num) (some (1 / 1000))
  obtain ⟨X, -⟩ := libs_exist .networkx
  obtain ⟨Ω, m, μ, R, h1, h2, -, h3⟩ := macroRng_exists M₀.layer.pts.length (p := 1 / 1000) (by norm_num) (by norm_num)
  have hsim : ∀ ω, ∃ err, monteCarlo (ecTrial X code "MWPM" {} macroModel) trials 2
      (fun r => ((M₀, fun k => R (r, k) ω), fun _ => none)) = some err := fun ω => by
    obtain ⟨err, _, e, -⟩ := C74_errors X hM (name := "MWPM") (o := {}) (Or.inl rfl) rfl trials two_pos (fun r k => R (r, k) ω) fun r k => by
      obtain ⟨⟨num, choice, hC, hdraw⟩, hlen, -⟩ := h1 (r, k)
      exact ⟨fun i hi => by rw [hdraw] at hi; exact (hC.arrangement () ω _ (hC.range () ω)).2.2 i hi, hlen ω⟩
    exact ⟨err, e⟩
  choose err herr using hsim
  exact ⟨Ω, m, μ, R, code, M₀, X, fun ω => err ω 0, hM, fun i => by rw [hdim], ⟨_, h⟩, h1, h2, h3, fun ω => ⟨err ω, herr ω, rfl⟩⟩

end Flamingpy.Trial
