import Verif.Proofs.MacroCode
import Verif.Props.Noise

/-!
# C48, C55, C56 on surface codes

`OnPolarCode` is the layer `CVMacroLayer(code, delta=..., p_swap=..., states=...)` makes on a code with any polarity
that gives the edges weights 1 and -1.  `OnMacroCode` asks in addition that there are no weights -1, or that there are
no swap-outs.
-/

namespace Flamingpy.Noise

open Flamingpy Flamingpy.SurfaceCode Flamingpy.EGraph

noncomputable section

/-- `M` is `CVMacroLayer(SurfaceCode(dims, ec, boundaries, polarity), delta, p_swap)`, for some order and direction of the
edge list of the code graph. -/
structure OnPolarCode (code : Code) (delta : ℝ) (pSwap : Option ℝ) (M : Macro Pt) : Prop where
  isCode : ∃ o ec b dims pol, (∀ i, 2 ≤ dims i) ∧ surfaceCode o ec b dims pol = some code
  weights : ∀ x y w, PyDict.get? code.graph.edges s(x, y) = some w → w.1 = 1 ∨ w.1 = -1
  delta_nonneg : 0 ≤ delta
  made : ∃ oriented, Oriented code oriented ∧ macroLayer code oriented delta pSwap none = some M

/-- No edge has weight -1, or there are no swap-outs. -/
structure OnMacroCode (code : Code) (delta : ℝ) (pSwap : Option ℝ) (M : Macro Pt) : Prop
    extends OnPolarCode code delta pSwap M where
  straight : (∀ x y w, PyDict.get? code.graph.edges s(x, y) = some w → w.1 = 1) ∨ ∀ p, pSwap = some p → p = 0

variable {code : Code} {delta : ℝ} {pSwap : Option ℝ} {M₀ M : Macro Pt} {n : ℕ}

theorem OnPolarCode.valid (h : OnPolarCode code delta pSwap M₀) : IsCode code := by
  obtain ⟨o, ec, b, dims, pol, hd, hc⟩ := h.isCode
  exact ⟨o, ec, b, dims, pol, hd, hc⟩

/-- The layer of a code.  The weight of an edge between micronodes is the weight of the edge between the qubits. -/
theorem OnPolarCode.ok (h : OnPolarCode code delta pSwap M₀) :
    ∃ cs, MacroOk M₀ cs ∧ Fresh M₀.layer ∧ M₀.layer.delta = delta ∧ M₀.layer.pSwap = pSwap ∧
      M₀.layer.pInds = some [] ∧
      (∀ c, c ∈ cs ↔ ∃ x ∈ PyDict.keys code.graph.nodes, c = toPt x) ∧
      ∀ x ∈ PyDict.keys code.graph.nodes, (M₀.around (toPt x)).Perm ((neighbors code x).map toPt) := by
  obtain ⟨o, ec, b, dims, pol, hd, hc⟩ := h.isCode
  obtain ⟨oriented, ho, hm⟩ := h.made
  obtain ⟨M, cs, h1, h2, h3, h4, h5, h6, -, h7⟩ :=
    macroLayer_ok hd hc h.weights ho h.delta_nonneg pSwap none ((C53_constructor pSwap none).2.1 rfl)
  rw [hm] at h1
  obtain rfl := Option.some.inj h1
  refine ⟨cs, h2, ⟨h2.nodup, [], h3, by simp⟩, h4, h5, ?_, h6, h7⟩
  unfold Layer.pInds
  rw [h3]
  simp [PyDict.get?]

/-- The weight of an edge between two micronodes is the weight of the edge between the qubits. -/
theorem OnPolarCode.adj (h : OnPolarCode code delta pSwap M₀) : ∀ i j, M₀.layer.pts[j] ∈ M₀.nbrs M₀.layer.pts[i] →
    ∃ x y, s(x, y) ∈ PyDict.keys code.graph.edges ∧ M₀.centre M₀.layer.pts[i] = toPt x ∧
      M₀.centre M₀.layer.pts[j] = toPt y ∧ M₀.layer.adj i j = polarityOf code x y := by
  obtain ⟨o, ec, b, dims, pol, hd, hc⟩ := h.isCode
  obtain ⟨oriented, ho, hm⟩ := h.made
  obtain ⟨M, cs, h1, h2, h3, h4, h5, h6, h7, -⟩ :=
    macroLayer_ok hd hc h.weights ho h.delta_nonneg pSwap none ((C53_constructor pSwap none).2.1 rfl)
  rw [hm] at h1
  obtain rfl := Option.some.inj h1
  exact h7

theorem OnMacroCode.valid (h : OnMacroCode code delta pSwap M₀) : IsCode code := h.toOnPolarCode.valid

theorem OnMacroCode.ok (h : OnMacroCode code delta pSwap M₀) :
    ∃ cs, MacroOk M₀ cs ∧ Fresh M₀.layer ∧ M₀.layer.delta = delta ∧ M₀.layer.pSwap = pSwap ∧
      M₀.layer.pInds = some [] ∧
      (∀ c, c ∈ cs ↔ ∃ x ∈ PyDict.keys code.graph.nodes, c = toPt x) ∧
      ∀ x ∈ PyDict.keys code.graph.nodes, (M₀.around (toPt x)).Perm ((neighbors code x).map toPt) := h.toOnPolarCode.ok

/-- Without swap-outs the weights do not matter. -/
theorem OnPolarCode.noSwap (h : OnPolarCode code delta none M₀) : OnMacroCode code delta none M₀ := ⟨h, Or.inr fun _ hp => by cases hp⟩

theorem OnMacroCode.isStraight (h : OnMacroCode code delta pSwap M₀) : M₀.straight := by
  obtain ⟨cs, h1, h2, -, h4, h5, -⟩ := h.ok
  rcases h.straight with hs | hs
  · left
    intro i j
    by_cases hij : M₀.layer.pts[j] ∈ M₀.nbrs M₀.layer.pts[i]
    · obtain ⟨x, y, hxy, -, -, ha⟩ := h.toOnPolarCode.adj i j hij
      obtain ⟨w, hw⟩ := Option.isSome_iff_exists.1 ((PyDict.get?_isSome_iff _ _).2 hxy)
      rw [ha, polarityOf, hw, Option.map_some, Option.getD_some, hs x y w hw]
      norm_num
    · rw [h1.adj0 i j hij]
  · right
    exact ⟨by rw [h4]; exact hs, h5⟩

/-- The constructor succeeds on every code whose polarity has the values 1 and -1, and with the polarity `None`. -/
theorem C56_constructor {o : SetOrder} {ec : Ec} {b : Boundaries} {dims : Fin 3 → ℕ} {pol : Option (V → V → ℤ)}
    (hpol : ∀ u v, weightOf pol u v = 1 ∨ weightOf pol u v = -1) (hd : ∀ i, 2 ≤ dims i)
    (hc : surfaceCode o ec b dims pol = some code) {oriented : List (V × V × Bool)} (ho : Oriented code oriented)
    (h0 : 0 ≤ delta) (pSwap : Option ℝ) :
    ∃ M, macroLayer code oriented delta pSwap none = some M ∧ OnPolarCode code delta pSwap M ∧
      (pol = none ∨ pSwap = none → OnMacroCode code delta pSwap M) := by
  have hw : ∀ x y w, PyDict.get? code.graph.edges s(x, y) = some w → w.1 = 1 ∨ w.1 = -1 := by
    intro x y w hg
    obtain ⟨u, v, h⟩ := weight_from hd hc hg
    rw [h]; exact hpol u v
  obtain ⟨M, cs, h1, _⟩ := macroLayer_ok hd hc hw ho h0 pSwap none ((C53_constructor pSwap none).2.1 rfl)
  have hp : OnPolarCode code delta pSwap M := ⟨⟨o, ec, b, dims, pol, hd, hc⟩, hw, h0, oriented, ho, h1⟩
  refine ⟨M, h1, hp, fun hor => ⟨hp, ?_⟩⟩
  rcases hor with rfl | rfl
  · left
    intro x y w hg
    obtain ⟨u, v, h⟩ := weight_from hd hc hg
    rw [h]; rfl
  · right
    intro p hp; cases hp

/-- The polarities of the package, `None` and `alternating_polarity`, have values 1 and -1. -/
theorem polarity_unit (pol : Option (V → V → ℤ)) (h : pol = none ∨ pol = some alternatingPolarity) :
    ∀ u v, weightOf pol u v = 1 ∨ weightOf pol u v = -1 := by
  intro u v
  rcases h with rfl | rfl
  · left; rfl
  · unfold weightOf alternatingPolarity
    simp only
    split_ifs <;> first | exact neg_one_pow_eq_or ℤ _ | exact Or.inl rfl

/-- Macronode noise on a code: every `apply_noise` succeeds, however often it was called before; every node of the
reduced lattice gets a label, a bit 0 or 1 and a phase error probability between 0 and 1/2. -/
theorem C56_code (h : OnPolarCode code delta pSwap M₀) (hh : MacroHist M₀ n M) (r : MacroRnd)
    (hd : ∀ i ∈ r.draw, i < M.layer.pts.length) (he : r.empty.length = 2 * M.layer.pts.length) :
    ∃ M', macroApply M r = some M' ∧ ∀ x ∈ PyDict.keys code.graph.nodes,
      (M'.redState (toPt x) = some "GKP" ∨ M'.redState (toPt x) = some "p") ∧
      (M'.redBit (toPt x) = some 0 ∨ M'.redBit (toPt x) = some 1) ∧
      ∃ y, M'.redProb (toPt x) = some y ∧ 0 ≤ y ∧ y ≤ 1 / 2 ∧ (delta = 0 → y = 0) := by
  obtain ⟨cs, h1, h2, h3, _, _, h6, _⟩ := h.ok
  obtain ⟨M', h7, h8⟩ := C56_apply h1 h2 hh r hd he
  refine ⟨M', h7, fun x hx => ?_⟩
  have hc := (h6 (toPt x)).2 ⟨x, hx, rfl⟩
  obtain ⟨a, y, b1, b2, b3, b4⟩ := h8 _ hc
  obtain ⟨l1, l2⟩ := C48_reduced_label h1 h2 hh r hd he h7 _ hc
  refine ⟨?_, a, y, b1, b2, b3, by rw [← h3]; exact b4⟩
  by_cases hg : M'.hasGkp (toPt x)
  · exact Or.inl (l1 hg)
  · exact Or.inr (l2 hg)

/-- Parity of a sum of integers. -/
theorem sum_parity (l : List V) (b : V → ℤ) :
    decide ((l.map b).sum % 2 = 1) = parity (fun y => decide (Odd (b y))) l := by
  have : decide ((l.map b).sum % 2 = 1) = decide (Odd (l.map b).sum) := by
    rw [decide_eq_decide, Int.odd_iff]
  rw [this, ← b2z_inj, b2z_odd, parity_eq, b2z_foldl]
  have h0 : b2z false = 0 := rfl
  rw [h0, zero_add]
  induction l with
  | nil => simp
  | cons x l ih =>
    rw [List.map_cons, List.sum_cons, List.map_cons, List.sum_cons, b2z_odd]
    rw [Int.cast_add, ih (by rw [decide_eq_decide, Int.odd_iff])]

/-- Small noise on a code: if every displacement of a homodyne outcome is at most a twentieth of √π, and every
macronode next to a syndrome qubit contains a GKP state, then no stabilizer is violated. -/
theorem C55_trivial_syndrome (h : OnMacroCode code delta pSwap M₀) (hh : MacroHist M₀ n M) (r : MacroRnd)
    (hd : ∀ i ∈ r.draw, i < M.layer.pts.length) (he : r.empty.length = 2 * M.layer.pts.length)
    {eps : ℝ} (heps : 20 * eps < √Real.pi) (hp : ∀ z, |√(delta / 2) * r.p.z z| ≤ eps)
    (hq : ∀ z, |√(delta / 2) * r.q.z z| ≤ eps) :
    ∃ M', macroApply M r = some M' ∧
      ((∀ x ∈ code.syndrome, ∀ y ∈ neighbors code x, M'.hasGkp (toPt y)) →
        (∃ vals : V → Bool, ∀ x ∈ code.syndrome,
          decide (M'.redBit (toPt x) = some 1) = parity vals (neighbors code x)) ∧
        trivialSyndrome code fun x => decide (M'.redBit (toPt x) = some 1)) := by
  obtain ⟨cs, h1, h2, h3, _, _, h6, h7⟩ := h.ok
  rw [← h3] at hp hq
  obtain ⟨M', a1, b, a2⟩ := C55_parity h1 h.isStraight h2 hh r hd he heps hp hq
  refine ⟨M', a1, fun hg => ?_⟩
  suffices hpar : ∀ x ∈ code.syndrome, decide (M'.redBit (toPt x) = some 1) =
      parity (fun y => decide (Odd (b (toPt y)))) (neighbors code x) from
    ⟨⟨_, hpar⟩, C26_noiseless h.valid _ _ hpar⟩
  intro x hx
  have hx' : x ∈ PyDict.keys code.graph.nodes :=
    (h.valid.ok.1.graphNodes x).2 (qubit_isNode ((h.valid.ok.1.syndrome x).1 hx))
  have hperm := h7 x hx'
  rw [a2 (toPt x) ((h6 _).2 ⟨x, hx', rfl⟩) ?_, (hperm.map b).sum_eq, List.map_map]
  · refine Eq.trans ?_ (sum_parity (neighbors code x) (b ∘ toPt))
    rw [decide_eq_decide, Option.some.injEq]
  · intro c hc
    rw [hperm.mem_iff] at hc
    obtain ⟨y, hy, rfl⟩ := List.mem_map.1 hc
    exact hg x hx y hy

/-- Without swap-outs every micronode is in a GKP state. -/
theorem OnPolarCode.all_gkp' (h : OnPolarCode code delta none M₀) (hh : MacroHist M₀ n M) (hn : 1 ≤ n) :
    ∀ y ∈ M.layer.pts, M.layer.attrs.state y = some "GKP" := by
  obtain ⟨cs, h1, h2, h3, h4, h5, h6, h7⟩ := h.ok
  have hH := MacroHist.inv h1 h2 hh
  obtain ⟨ps, gs, c1, c2, c3, _, _⟩ := C45_alternates h2 hH.1 (by omega) (by rw [h4]; simp)
  obtain ⟨ps', d1, d2⟩ := C46_labels h2 hH.1 (by omega)
  rw [h5] at c1
  rw [c2, ← c1] at d1
  have hps : ps' = [] := (Option.some.inj d1).symm
  subst hps
  intro y hy
  obtain ⟨i, hi', hiy⟩ := List.getElem_of_mem hy
  have := d2 i hi'
  rw [hiy] at this
  simpa using this

/-- Without swap-outs every macronode contains a GKP state. -/
theorem OnPolarCode.all_gkp (h : OnPolarCode code delta none M₀) (hh : MacroHist M₀ n M) (hn : 1 ≤ n)
    {y : V} (hyn : y ∈ PyDict.keys code.graph.nodes) : M.hasGkp (toPt y) := by
  have hall := h.all_gkp' hh hn
  obtain ⟨cs, h1, h2, h3, h4, h5, h6, h7⟩ := h.ok
  have hH := MacroHist.inv h1 h2 hh
  obtain ⟨ps₀, gs₀, hi⟩ := hH.1.inv h2
  have hok := h1.transport hi hH.2
  obtain ⟨k, hk, hkc⟩ := List.getElem_of_mem ((h6 (toPt y)).2 ⟨y, hyn, rfl⟩)
  obtain ⟨p, p1, p2, p3⟩ := hok.get (i := 4 * k) (by omega)
  refine ⟨p, ?_, hall p p2⟩
  unfold Macro.micros
  rw [List.mem_filter, decide_eq_true_eq]
  refine ⟨p2, ?_⟩
  rw [show 4 * k / 4 = k by omega, List.getElem?_eq_getElem hk, hkc] at p3
  exact (Option.some.inj p3).symm

/-- Without swap-outs the condition on GKP states holds by itself. -/
theorem C55_no_swap (h : OnPolarCode code delta none M₀) (hh : MacroHist M₀ n M) (r : MacroRnd)
    (hd : ∀ i ∈ r.draw, i < M.layer.pts.length) (he : r.empty.length = 2 * M.layer.pts.length)
    {eps : ℝ} (heps : 20 * eps < √Real.pi) (hp : ∀ z, |√(delta / 2) * r.p.z z| ≤ eps)
    (hq : ∀ z, |√(delta / 2) * r.q.z z| ≤ eps) :
    ∃ M', macroApply M r = some M' ∧
      (∃ vals : V → Bool, ∀ x ∈ code.syndrome,
        decide (M'.redBit (toPt x) = some 1) = parity vals (neighbors code x)) ∧
      trivialSyndrome code fun x => decide (M'.redBit (toPt x) = some 1) := by
  obtain ⟨M', a1, a2⟩ := C55_trivial_syndrome h.noSwap hh r hd he heps hp hq
  exact ⟨M', a1, a2 fun x hx y hy => h.all_gkp (.apply r hh hd he a1) (by omega) (List.mem_filter.1 hy).1⟩

/-! ### Concrete cases -/

/-- The edges of a code graph can be listed in some direction. -/
theorem oriented_exists (code : Code) : ∃ oriented, Oriented code oriented := by
  refine ⟨code.graph.edges.map fun e => ((Quot.out e.1).1, (Quot.out e.1).2, e.2.2), ?_⟩
  unfold Oriented
  rw [List.map_map]
  apply List.Perm.of_eq
  apply List.map_congr_left
  rintro ⟨e, w, p⟩ _
  simp only [Function.comp, Prod.mk.injEq, and_true]
  exact Quot.out_eq e

/-- Macronode layers on codes of every kind exist, with both polarities and any swap-out probability. -/
theorem onPolarCode_exists (ec : Ec) (b : Boundaries) {delta : ℝ} (h0 : 0 ≤ delta) (pSwap : Option ℝ) (pol : Option (V → V → ℤ))
    (hpol : pol = none ∨ pol = some alternatingPolarity) :
    ∃ o code M, surfaceCode o ec b (fun _ => 3) pol = some code ∧ OnPolarCode code delta pSwap M ∧ code.ec = ec ∧ code.boundaries = b ∧
      (pol = none ∨ pSwap = none → OnMacroCode code delta pSwap M) := by
  obtain ⟨code, h, h1, h2, h3⟩ := C54_constructor_total idOrder ec b (dims := fun _ => 3) (by simp) pol
  obtain ⟨oriented, ho⟩ := oriented_exists code
  obtain ⟨M, _, hM⟩ := C56_constructor (polarity_unit pol hpol) (by simp) h ho h0 pSwap
  exact ⟨_, code, M, h, hM.1, h2, h3, hM.2⟩

theorem onMacroCode_exists (ec : Ec) (b : Boundaries) {delta : ℝ} (h0 : 0 ≤ delta) (pSwap : Option ℝ) :
    ∃ code M, OnMacroCode code delta pSwap M ∧ code.ec = ec ∧ code.boundaries = b := by
  obtain ⟨o, code, M, -, -, h2, h3, h4⟩ := onPolarCode_exists ec b h0 pSwap none (Or.inl rfl)
  exact ⟨code, M, h4 (Or.inl rfl), h2, h3⟩

-- the hypotheses of `C55_no_swap` are met: finite squeezing, and standard normal samples of size at most 1, alternating polarity
example (ec : Ec) (b : Boundaries) (z : ℕ → ℝ) (hz : ∀ k, |z k| ≤ 1) (k : ℕ → ℤ) :
    ∃ o code M M', surfaceCode o ec b (fun _ => 3) (some alternatingPolarity) = some code ∧
      OnMacroCode code (1 / 200) none M ∧ code.ec = ec ∧ code.boundaries = b ∧
      macroApply M ⟨[], ⟨z, fun _ => 0, k⟩, ⟨z, fun _ => 0, k⟩, ⟨z, fun _ => 0, k⟩,
        List.replicate (2 * M.layer.pts.length) 0⟩ = some M' ∧
      trivialSyndrome code fun x => decide (M'.redBit (toPt x) = some 1) := by
  obtain ⟨o, code, M, ha, -, h1, h2, hM⟩ := onPolarCode_exists ec b (delta := 1 / 200) (by norm_num) none
    (some alternatingPolarity) (Or.inr rfl)
  have hM := hM (Or.inr rfl)
  have hs : √((1 / 200 : ℝ) / 2) = 1 / 20 := by
    rw [show (1 / 200 : ℝ) / 2 = (1 / 20) ^ 2 by norm_num]
    exact Real.sqrt_sq (by norm_num)
  have hb : ∀ i, |√((1 / 200 : ℝ) / 2) * z i| ≤ 1 / 20 := by
    intro i
    rw [hs, abs_mul]
    have := hz i
    rw [abs_of_pos (by norm_num : (0:ℝ) < 1 / 20)]
    linarith
  have hpi : (20 : ℝ) * (1 / 20) < √Real.pi := by
    rw [show (20 : ℝ) * (1 / 20) = √1 by simp]
    exact Real.sqrt_lt_sqrt (by norm_num) (by linarith [Real.pi_gt_three])
  obtain ⟨M', e1, e2⟩ := C55_no_swap hM.toOnPolarCode .start ⟨[], ⟨z, fun _ => 0, k⟩, ⟨z, fun _ => 0, k⟩, ⟨z, fun _ => 0, k⟩,
        List.replicate (2 * M.layer.pts.length) 0⟩ (by simp) (by simp) hpi hb hb
  exact ⟨o, code, M, M', ha, hM, h1, h2, e1, e2.2⟩

-- and those of `C56_code` after two calls with swap-outs and alternating polarity
example (r : MacroRnd) (hr : r.draw = [0, 2]) :
    ∃ o code M, surfaceCode o .primal .open (fun _ => 3) (some alternatingPolarity) = some code ∧
      OnPolarCode code (1 / 10) (some (1 / 2)) M ∧
      (r.empty.length = 2 * M.layer.pts.length → ∃ M₁ M₂, MacroHist M 1 M₁ ∧ MacroHist M 2 M₂) := by
  obtain ⟨o, code, M, ha, hM, _⟩ := onPolarCode_exists .primal .open (delta := 1 / 10) (by norm_num) (some (1 / 2))
    (some alternatingPolarity) (Or.inr rfl)
  refine ⟨o, code, M, ha, hM, fun he => ?_⟩
  obtain ⟨cs, h1, h2, _⟩ := hM.ok
  have hl : 0 < cs.length := List.length_pos_iff.2 h1.nonempty
  have hdr : ∀ i ∈ r.draw, i < M.layer.pts.length := by
    rw [hr, h1.len]; intro i hi; simp at hi; omega
  obtain ⟨M₁, a1, _⟩ := C56_code hM .start r hdr he
  have hh : MacroHist M 1 M₁ := .apply r .start hdr he a1
  obtain ⟨ps, gs, hi⟩ := (hh.inv h1 h2).1.inv h2
  have hdr' : ∀ i ∈ r.draw, i < M₁.layer.pts.length := by rw [hi.pts]; exact hdr
  have he' : r.empty.length = 2 * M₁.layer.pts.length := by rw [hi.pts]; exact he
  obtain ⟨M₂, a2, _⟩ := C56_code hM hh r hdr' he'
  exact ⟨M₁, M₂, hh, .apply r hh hdr' he' a2⟩

-- those of `C48_reduced_label`, `C48_stored`, `C56_apply` and `C56_value`: the macronode graph of a code, after any call
example (r : MacroRnd) (hd : r.draw = []) : ∃ (M : Macro Pt) (cs : List Pt), MacroOk M cs ∧ Fresh M.layer ∧ cs ≠ [] ∧
    (r.empty.length = 2 * M.layer.pts.length → ∃ M', macroApply M r = some M' ∧ MacroHist M 1 M') := by
  obtain ⟨o, code, M, ha, hM, _⟩ := onPolarCode_exists .dual .toric (delta := 1 / 10) (by norm_num) (some (1 / 2))
    (some alternatingPolarity) (Or.inr rfl)
  obtain ⟨cs, h1, h2, _⟩ := hM.ok
  refine ⟨M, cs, h1, h2, h1.nonempty, fun he => ?_⟩
  obtain ⟨M₁, a1, _⟩ := C56_code hM .start r (by rw [hd]; simp) he
  exact ⟨M₁, a1, .apply r .start (by rw [hd]; simp) he a1⟩

end

end Flamingpy.Noise
