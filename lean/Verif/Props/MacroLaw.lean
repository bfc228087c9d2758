import Verif.Proofs.MacroLaw
import Verif.Props.MacroCode
import Verif.Props.GkpLawHom

/-!
# C69: how often macronode noise flips a bit, and what `p_phase_cond` says about it

`run z` is the layer after `apply_noise` with the normal deviates `z`; `run 0` is the noiseless run with the same states and means.
By `C55_trivial_syndrome` the bits of the noiseless run violate no stabilizer.
-/

namespace Flamingpy.Noise

open Flamingpy Flamingpy.SurfaceCode Flamingpy.EGraph MeasureTheory ProbabilityTheory
open scoped NNReal ENNReal

noncomputable section

/-- The probability that centred Gaussian noise of variance `v` flips a binned bit. -/
def flipProb (v : ℝ) : ℝ := (gaussianReal 0 v.toNNReal).real {x | Gkp.gkpBinner x ≠ 0}

/-- The probability that an odd number of flips happens at a macronode, given the fractional parts: the outcome has noise of variance
`(2 + momentum neighbours) delta`, what a GKP neighbour that is not a star contributes has noise of variance `delta`. -/
def flipGiven (N : Macro Pt) (delta : ℝ) (c : Pt) (f : Option Pt → ℝ) : ℝ :=
  (1 - (1 - 2 * Gkp.errGiven (2 * (2 + (N.pLinks c).length) * delta) (f none)) *
    ((N.gkpPlanets c).map fun y => 1 - 2 * Gkp.errGiven (2 * delta) (f (some y))).prod) / 2

/-- What `p_phase_cond` stands for: the sum of the conditional error probabilities of the outcome and of all GKP neighbours. -/
def errSum (N : Macro Pt) (delta : ℝ) (c : Pt) (f : Option Pt → ℝ) : ℝ :=
  ((N.gkpLinks c).map fun y => Gkp.errGiven (2 * delta) (f (some y))).sum +
    Gkp.errGiven (2 * (2 + (N.pLinks c).length) * delta) (f none)

variable {code : Code} {delta : ℝ} {pSwap : Option ℝ} {M₀ M : Macro Pt} {n : ℕ}

theorem OnPolarCode.perfect (h : OnPolarCode code delta pSwap M₀) : M₀.layer.perfect = [] := by
  obtain ⟨oriented, _, hm⟩ := h.made
  unfold macroLayer at hm
  simp only [Option.bind_eq_bind, Option.bind_eq_some_iff] at hm
  obtain ⟨m, _, a, _, pts, _, st, _, he⟩ := hm
  rw [← Option.some.inj he]

variable {Ω : Type*} [MeasurableSpace Ω] {μ : Measure Ω}

/-- The pieces used by the theorems below. -/
theorem macro_pieces (h : OnMacroCode code delta pSwap M₀) (hd : 0 < delta) (hh : MacroHist M₀ n M) (draw : List ℕ) (means : Rnd)
    (empty : List ℕ) (rp rq : Rnd) (hdr : ∀ i ∈ draw, i < M.layer.pts.length) (he : empty.length = 2 * M.layer.pts.length)
    {run : (Bool × ℕ → ℝ) → Macro Pt} (hrun : ∀ z, macroApply M (macroRnd draw means empty rp rq z) = some (run z)) :
    (∀ z, SameLabels (run z) (run fun _ => 0)) ∧ (∃ cs, ∀ z, MacroOk (run z) cs) ∧
    ∀ {Z : Bool × ℕ → Ω → ℝ}, NormalIid Z μ → ∀ x ∈ PyDict.keys code.graph.nodes,
      (∀ y ∈ neighbors code x, (run fun _ => 0).hasGkp (toPt y)) →
      ∃ (l : List ℕ) (g : ℕ → Pt) (X : Option {i // i ∈ l} → Ω → ℝ), l.Nodup ∧ ((run fun _ => 0).gkpPlanets (toPt x)).Perm (l.map g) ∧
        iIndepFun X μ ∧ (∀ o, Measurable (X o)) ∧
        μ.map (X none) = gaussianReal 0 ((2 + ((run fun _ => 0).pLinks (toPt x)).length) * delta).toNNReal ∧
        (∀ i, μ.map (X (some i)) = gaussianReal 0 delta.toNNReal) ∧
        (∀ ω, ((run fun j => Z j ω).redBit (toPt x) ≠ (run fun _ => 0).redBit (toPt x) ↔ Gkp.OddBits fun o => X o ω)) ∧
        ∃ Φ : (Option {i // i ∈ l} → ℝ) → Option Pt → ℝ, Measurable Φ ∧ (∀ f, Φ f none = f none) ∧
          (∀ f i, Φ f (some (g i.1)) = f (some i)) ∧
          ∀ ω, (run fun j => Z j ω).fracs (toPt x) = Φ fun o => Gkp.fracOf (X o ω) := by
  obtain ⟨cs, h1, h2, h3, _, _, h6, h7⟩ := h.ok
  obtain ⟨hH, hfr⟩ := hh.inv h1 h2
  obtain ⟨ps₀, gs₀, hi⟩ := hH.inv h2
  obtain ⟨G, run', r1, r2, r3, r4, r5, r6, r7, r8⟩ := run_flip h1 hi hH hfr draw means empty rp rq hdr he
    (straight_wI h1 h.isStraight h2 hH hi hdr)
  have hrr : run' = run := by
    funext z
    have := r1 z
    rw [hrun z] at this
    exact (Option.some.inj this).symm
  subst hrr
  refine ⟨r2, ⟨cs, r3⟩, fun {Z} hZ x hx hgkp => ?_⟩
  obtain ⟨k, hk, hkc⟩ := List.getElem_of_mem ((h6 (toPt x)).2 ⟨x, hx, rfl⟩)
  have hperm := h7 x hx
  have hnd : (M₀.around cs[k]).Nodup := by
    rw [hkc, hperm.nodup_iff]
    exact List.Nodup.map toPt_inj ((h.valid.ok.1.nodesNd).filter _)
  obtain ⟨a1, a2⟩ := r8 k hk hnd (by
    intro c hc
    rw [hkc, hperm.mem_iff] at hc
    obtain ⟨y, hy, rfl⟩ := List.mem_map.1 hc
    exact hgkp y hy)
  rw [hkc] at a2
  obtain ⟨b1, b2⟩ := h1.nbList_dist hk hnd
  set perm := permOf G cs.length with hpermdef
  set N := run' fun _ => 0 with hN
  set l := planetList M₀ perm G k with hl
  have hmeml : ∀ i, i ∈ l ↔ i ∈ nbList M₀ k ∧ G i = true ∧ perm.idxOf i % 4 ≠ 0 := by
    intro i
    rw [hl, planetList, List.mem_filter, Bool.and_eq_true, decide_eq_true_eq]
  obtain ⟨p₀, _⟩ := h1.get (i := 4 * k) (by omega)
  set g : ℕ → Pt := fun i => (M₀.layer.pts[i]?).getD p₀ with hg
  have hgget : ∀ i ∈ nbList M₀ k, M₀.layer.pts[i]? = some (g i) := by
    intro i hi
    obtain ⟨_, y, hy, _⟩ := h1.nbList_get hk hi
    simp only [hg, hy, Option.getD_some]
  have hlab : ∀ z i y, (run' z).layer.pts[i]? = some y → (run' z).layer.attrs.state y = some (if G i then "GKP" else "p") ∧
      (run' z).bodyIndex y = some (perm.idxOf i % 4 + 1) := by
    intro z i y hy
    rw [r7] at hy
    exact r5 z i y hy
  -- the links, by indices
  have hpl : (N.pLinks (toPt x)).length = ((nbList M₀ k).filter fun i => !G i).length := by
    have := (r3 fun _ => 0).links_filter hk (fun y => decide (N.layer.attrs.state y = some "p")) (fun i => !G i)
      (fun i y hy => by rw [(hlab _ i y hy).1]; cases G i <;> simp) (fun _ => ()) (fun _ => ()) (fun _ _ _ => rfl)
    rw [r6 _ k hk, hkc] at this
    simpa [Macro.pLinks] using this.length_eq
  have hgp : (N.gkpPlanets (toPt x)).Perm (l.map g) := by
    have := (r3 fun _ => 0).links_filter hk (fun y => decide (N.bodyIndex y ≠ some 1) && decide (N.layer.attrs.state y = some "GKP"))
      (fun i => G i && decide (perm.idxOf i % 4 ≠ 0))
      (fun i y hy => by
        obtain ⟨e1, e2⟩ := hlab _ i y hy
        rw [hN, e1, e2, Bool.and_comm]
        congr 1
        · cases G i <;> simp
        · rw [decide_eq_decide, ne_eq, Option.some.injEq]; omega) id g (fun i y hy => by
          rw [r7] at hy
          simp [hg, hy])
    rw [r6 _ k hk, hkc, List.map_id] at this
    unfold Macro.gkpPlanets Macro.gkpLinks
    rw [List.filter_filter]
    exact this
  set X : Option {i // i ∈ l} → Ω → ℝ := fun o ω => nodeNoise M₀ perm G k (fun j => Z j ω) o with hX
  obtain ⟨c1, c2, c3, c4⟩ := node_noise hZ h.toOnPolarCode.perfect (by rw [h3]; exact hd) (permOf_perm G cs.length) hk G b1
    (fun i hi => by have := (h1.nbList_get hk hi).1; omega) b2 a1 (X := X) (fun ω => rfl) (fun i ω => rfl)
  rw [h3] at c3 c4
  refine ⟨l, g, X, b1.filter _, hgp, c1, c2, by rw [hpl]; exact c3, c4, fun ω => (a2 _).1, ?_⟩
  -- fractional parts
  have hptnd := h1.nodup
  have hidx : ∀ i ∈ nbList M₀ k, M₀.layer.pts.idxOf (g i) = i := by
    intro i hi
    obtain ⟨e1, e2⟩ := List.getElem?_eq_some_iff.1 (hgget i hi)
    rw [← e2]
    exact hptnd.idxOf_getElem i e1
  refine ⟨fun f o => match o with
    | none => f none
    | some y => if hy : M₀.layer.pts.idxOf y ∈ l ∧ y ∈ M₀.layer.pts then f (some ⟨_, hy.1⟩) else 0, ?_, fun f => rfl, ?_, ?_⟩
  · refine measurable_pi_lambda _ fun o => ?_
    cases o with
    | none => exact measurable_pi_apply _
    | some y =>
      simp only
      split_ifs
      · exact measurable_pi_apply _
      · exact measurable_const
  · intro f i
    have hi := ((hmeml i.1).1 i.2).1
    have e := hidx i.1 hi
    simp only
    rw [dif_pos ⟨by rw [e]; exact i.2, List.mem_of_getElem? (hgget i.1 hi)⟩]
    congr 2
    exact Subtype.ext e
  · intro ω
    obtain ⟨-, ⟨m, hm⟩, hcon⟩ := a2 fun j => Z j ω
    set M' := run' fun j => Z j ω with hM'
    have hgl : ∀ y, y ∈ M'.gkpLinks (toPt x) ↔ ∃ i ∈ nbList M₀ k, G i = true ∧ M₀.layer.pts[i]? = some y := by
      intro y
      have := (r3 fun j => Z j ω).links_filter hk (fun y => decide (M'.layer.attrs.state y = some "GKP")) G
        (fun i y hy => by rw [hM', (hlab _ i y hy).1]; cases G i <;> simp) id g (fun i y hy => by
          rw [r7] at hy
          simp [hg, hy])
      rw [r6 _ k hk, hkc, List.map_id] at this
      have e : y ∈ M'.gkpLinks (toPt x) ↔ y ∈ ((nbList M₀ k).filter G).map g := this.mem_iff
      rw [e, List.mem_map]
      constructor
      · rintro ⟨i, hi, rfl⟩
        rw [List.mem_filter] at hi
        exact ⟨i, hi.1, hi.2, hgget i hi.1⟩
      · rintro ⟨i, hi, hGi, hy⟩
        refine ⟨i, List.mem_filter.2 ⟨hi, hGi⟩, ?_⟩
        simp [hg, hy]
    funext o
    cases o with
    | none =>
      change Gkp.fracOf (M'.outcome (toPt x)) = Gkp.fracOf (X none ω)
      rw [hm, (Gkp.binner_add _ _).2]
    | some y =>
      change _ = (if hy : M₀.layer.pts.idxOf y ∈ l ∧ y ∈ M₀.layer.pts then
        Gkp.fracOf (X (some ⟨_, hy.1⟩) ω) else 0)
      rw [Macro.fracs]
      by_cases hy : y ∈ M'.gkpLinks (toPt x)
      · rw [if_pos hy]
        change Gkp.fracOf (M'.contribution y) = _
        obtain ⟨i, hi, hGi, hyi⟩ := (hgl y).1 hy
        have hyg : g i = y := by simp [hg, hyi]
        have hiy : M₀.layer.pts.idxOf y = i := by rw [← hyg]; exact hidx i hi
        obtain ⟨m', hm'⟩ := hcon i hi hGi y hyi
        rw [hm', (Gkp.binner_add _ _).2]
        by_cases h0 : perm.idxOf i % 4 = 0
        · rw [zNoise_star h0, Gkp.frac_zero, dif_neg]
          rw [hiy]
          rintro ⟨hc, _⟩
          exact ((hmeml i).1 hc).2.2 h0
        · have hil : i ∈ l := (hmeml i).2 ⟨hi, hGi, h0⟩
          rw [dif_pos ⟨by rw [hiy]; exact hil, List.mem_of_getElem? hyi⟩]
          have : (⟨M₀.layer.pts.idxOf y, by rw [hiy]; exact hil⟩ : {i // i ∈ l}) = ⟨i, hil⟩ := Subtype.ext hiy
          rw [this]
          rfl
      · rw [if_neg hy, dif_neg]
        rintro ⟨hc, hyp⟩
        obtain ⟨e1, e2, _⟩ := (hmeml _).1 hc
        refine hy ((hgl y).2 ⟨_, e1, e2, ?_⟩)
        rw [List.getElem?_eq_getElem (List.idxOf_lt_length_of_mem hyp)]
        exact congrArg some (List.getElem_idxOf _)

theorem prod_list {l : List ℕ} (hnd : l.Nodup) (f : ℕ → ℝ) : (l.map f).prod = ∏ i : {i // i ∈ l}, f i.1 := by
  classical
  rw [← List.prod_toFinset _ hnd]
  exact Finset.prod_subtype _ (fun x => List.mem_toFinset) f

theorem flip_eq {X : Ω → ℝ} (hm : Measurable X) {v : ℝ} (hl : μ.map X = gaussianReal 0 v.toNNReal) :
    μ.real {ω | Gkp.gkpBinner (X ω) = 1} = flipProb v := by
  unfold flipProb
  have hs : {x | Gkp.gkpBinner x ≠ 0} = {x | Gkp.gkpBinner x = 1} := by
    ext x
    have := Gkp.binner_zero_or_one x
    simp only [Set.mem_ofPred_eq]
    omega
  have hms : MeasurableSet {x | Gkp.gkpBinner x = 1} := Gkp.measurable_binner (measurableSet_singleton (1 : ℤ))
  rw [← hl, hs, measureReal_def, measureReal_def, Measure.map_apply hm hms]
  rfl

/-- C69.  The probability that the bit of a node differs from the noiseless one, if all neighbouring macronodes contain GKP states.
Labels and stars do not depend on the deviates. -/
theorem C69_flip (h : OnMacroCode code delta pSwap M₀) (hd : 0 < delta) (hh : MacroHist M₀ n M) (draw : List ℕ) (means : Rnd)
    (empty : List ℕ) (rp rq : Rnd) (hdr : ∀ i ∈ draw, i < M.layer.pts.length) (he : empty.length = 2 * M.layer.pts.length)
    {run : (Bool × ℕ → ℝ) → Macro Pt} (hrun : ∀ z, macroApply M (macroRnd draw means empty rp rq z) = some (run z))
    {Z : Bool × ℕ → Ω → ℝ} (hZ : NormalIid Z μ) :
    (∀ z, SameLabels (run z) (run fun _ => 0)) ∧
    ∀ x ∈ PyDict.keys code.graph.nodes, (∀ y ∈ neighbors code x, (run fun _ => 0).hasGkp (toPt y)) →
      μ.real {ω | (run fun j => Z j ω).redBit (toPt x) ≠ (run fun _ => 0).redBit (toPt x)} =
        (1 - (1 - 2 * flipProb ((2 + ((run fun _ => 0).pLinks (toPt x)).length) * delta)) *
          (1 - 2 * flipProb delta) ^ ((run fun _ => 0).gkpPlanets (toPt x)).length) / 2 := by
  obtain ⟨p1, _, p2⟩ := macro_pieces (μ := μ) h hd hh draw means empty rp rq hdr he hrun
  refine ⟨p1, fun x hx hg => ?_⟩
  obtain ⟨l, g, X, q0, q1, q2, q3, q4, q5, q6, -⟩ := p2 hZ x hx hg
  have hset : {ω | (run fun j => Z j ω).redBit (toPt x) ≠ (run fun _ => 0).redBit (toPt x)} = {ω | Gkp.OddBits fun o => X o ω} := by
    ext ω
    exact q6 ω
  rw [hset, Gkp.parity_law q2 q3, Fintype.prod_option, flip_eq (q3 none) q4,
    Finset.prod_congr rfl fun i _ => by rw [flip_eq (q3 (some i)) (q5 i)],
    ← prod_list q0 fun _ => 1 - 2 * flipProb delta, List.map_const', List.prod_replicate, q1.length_eq, List.length_map]

theorem measurable_errGiven' {var : ℝ} (hv : 0 < var) : Measurable (Gkp.errGiven var) := by
  have : Gkp.errGiven var = fun f => (ENNReal.ofReal (Gkp.errGiven var f)).toReal := by
    funext f
    rw [ENNReal.toReal_ofReal (Gkp.errGiven_nonneg _ _)]
  rw [this]
  exact (Gkp.measurable_errGiven hv).ennreal_toReal

/-- C69.  The conditional probability of a flip given the fractional parts of the outcome and of what the GKP neighbours contribute:
for every set of fractional parts, the probability of a flip with the parts in the set is the integral of `flipGiven`. -/
theorem C69_given (h : OnMacroCode code delta pSwap M₀) (hd : 0 < delta) (hh : MacroHist M₀ n M) (draw : List ℕ) (means : Rnd)
    (empty : List ℕ) (rp rq : Rnd) (hdr : ∀ i ∈ draw, i < M.layer.pts.length) (he : empty.length = 2 * M.layer.pts.length)
    {run : (Bool × ℕ → ℝ) → Macro Pt} (hrun : ∀ z, macroApply M (macroRnd draw means empty rp rq z) = some (run z))
    {Z : Bool × ℕ → Ω → ℝ} (hZ : NormalIid Z μ) {x : V} (hx : x ∈ PyDict.keys code.graph.nodes)
    (hg : ∀ y ∈ neighbors code x, (run fun _ => 0).hasGkp (toPt y)) {A : Set (Option Pt → ℝ)} (hA : MeasurableSet A) :
    μ {ω | (run fun j => Z j ω).redBit (toPt x) ≠ (run fun _ => 0).redBit (toPt x) ∧ (run fun j => Z j ω).fracs (toPt x) ∈ A} =
      ∫⁻ ω in {ω | (run fun j => Z j ω).fracs (toPt x) ∈ A},
        ENNReal.ofReal (flipGiven (run fun _ => 0) delta (toPt x) ((run fun j => Z j ω).fracs (toPt x))) ∂μ := by
  obtain ⟨-, -, p2⟩ := macro_pieces (μ := μ) h hd hh draw means empty rp rq hdr he hrun
  obtain ⟨l, g, X, q0, q1, q2, q3, q4, q5, q6, Φ, f1, f2, f3, f4⟩ := p2 hZ x hx hg
  set N := run fun _ => 0 with hN
  set var : Option {i // i ∈ l} → ℝ := fun o => match o with
    | none => 2 * (2 + (N.pLinks (toPt x)).length) * delta
    | some _ => 2 * delta with hvar
  have hv : ∀ o, 0 < var o := by
    rintro (_ | i) <;> simp only [hvar] <;> positivity
  have hlaw : ∀ o, μ.map (X o) = gaussianReal 0 (var o / 2).toNNReal := by
    rintro (_ | i)
    · rw [q4]
      congr 2
      simp only [hvar]
      ring
    · rw [q5 i]
      congr 2
      simp only [hvar]
      ring
  have hmain := Gkp.parity_given_of_indep hv q2 q3 hlaw (f1 hA)
  have hset : {ω | (run fun j => Z j ω).redBit (toPt x) ≠ N.redBit (toPt x) ∧ (run fun j => Z j ω).fracs (toPt x) ∈ A} =
      {ω | Gkp.OddBits (fun o => X o ω) ∧ (fun o => Gkp.fracOf (X o ω)) ∈ Φ ⁻¹' A} := by
    ext ω
    simp only [Set.mem_ofPred_eq, q6 ω, f4 ω, Set.mem_preimage]
  have hset2 : {ω | (run fun j => Z j ω).fracs (toPt x) ∈ A} = {ω | (fun o => Gkp.fracOf (X o ω)) ∈ Φ ⁻¹' A} := by
    ext ω
    simp only [Set.mem_ofPred_eq, f4 ω, Set.mem_preimage]
  rw [hset, hset2, hmain]
  congr 1
  funext ω
  congr 1
  rw [Gkp.parityGiven, flipGiven, Fintype.prod_option, f4 ω, f2, (q1.map _).prod_eq, List.map_map, prod_list q0]
  congr 3
  refine Finset.prod_congr rfl fun i _ => ?_
  rw [Function.comp, f3]

/-- An odd number of flips is at most as likely as some flip. -/
theorem odd_le_sum (l : List ℝ) (hl : ∀ e ∈ l, 0 ≤ e ∧ e ≤ 1) :
    |(l.map fun e => 1 - 2 * e).prod| ≤ 1 ∧ (1 - (l.map fun e => 1 - 2 * e).prod) / 2 ≤ l.sum := by
  induction l with
  | nil => simp
  | cons a l ih =>
    obtain ⟨i1, i2⟩ := ih fun e he => hl e (by simp [he])
    obtain ⟨h0, h1⟩ := hl a (by simp)
    simp only [List.map_cons, List.prod_cons, List.sum_cons]
    set Q := (l.map fun e => 1 - 2 * e).prod
    refine ⟨?_, ?_⟩
    · rw [abs_mul]
      have : |1 - 2 * a| ≤ 1 := abs_le.2 ⟨by linarith, by linarith⟩
      calc |1 - 2 * a| * |Q| ≤ 1 * 1 := mul_le_mul this i1 (abs_nonneg _) zero_le_one
        _ = 1 := one_mul 1
    · have := (abs_le.1 i1).2
      nlinarith

theorem flipGiven_le {N : Macro Pt} (hd : 0 < delta) (c : Pt) (f : Option Pt → ℝ) :
    flipGiven N delta c f ≤ errSum N delta c f := by
  have h2 : 0 < 2 * (2 + ((N.pLinks c).length : ℝ)) * delta := by positivity
  have := (odd_le_sum (Gkp.errGiven (2 * (2 + (N.pLinks c).length) * delta) (f none) ::
    (N.gkpPlanets c).map fun y => Gkp.errGiven (2 * delta) (f (some y))) (by
      intro e he
      rcases List.mem_cons.1 he with rfl | he
      · exact ⟨Gkp.errGiven_nonneg _ _, Gkp.errGiven_le_one h2 _⟩
      · obtain ⟨y, _, rfl⟩ := List.mem_map.1 he
        exact ⟨Gkp.errGiven_nonneg _ _, Gkp.errGiven_le_one (by positivity) _⟩)).2
  rw [List.map_cons, List.prod_cons, List.sum_cons, List.map_map] at this
  unfold flipGiven errSum
  refine this.trans ?_
  rw [add_comm]
  refine add_le_add ?_ le_rfl
  exact ((List.filter_sublist (p := fun y => decide (N.bodyIndex y ≠ some 1)) (l := N.gkpLinks c)).map _).sum_le_sum
    fun e he => by
      obtain ⟨y, _, rfl⟩ := List.mem_map.1 he
      exact Gkp.errGiven_nonneg _ _

/-- C69.  `errSum` bounds the conditional probability of a flip from above: for every set of fractional parts, the probability of a flip
with the parts in the set is at most the integral of `errSum`. -/
theorem C69_bound (h : OnMacroCode code delta pSwap M₀) (hd : 0 < delta) (hh : MacroHist M₀ n M) (draw : List ℕ) (means : Rnd)
    (empty : List ℕ) (rp rq : Rnd) (hdr : ∀ i ∈ draw, i < M.layer.pts.length) (he : empty.length = 2 * M.layer.pts.length)
    {run : (Bool × ℕ → ℝ) → Macro Pt} (hrun : ∀ z, macroApply M (macroRnd draw means empty rp rq z) = some (run z))
    {Z : Bool × ℕ → Ω → ℝ} (hZ : NormalIid Z μ) {x : V} (hx : x ∈ PyDict.keys code.graph.nodes)
    (hg : ∀ y ∈ neighbors code x, (run fun _ => 0).hasGkp (toPt y)) {A : Set (Option Pt → ℝ)} (hA : MeasurableSet A) :
    μ {ω | (run fun j => Z j ω).redBit (toPt x) ≠ (run fun _ => 0).redBit (toPt x) ∧ (run fun j => Z j ω).fracs (toPt x) ∈ A} ≤
      ∫⁻ ω in {ω | (run fun j => Z j ω).fracs (toPt x) ∈ A},
        ENNReal.ofReal (errSum (run fun _ => 0) delta (toPt x) ((run fun j => Z j ω).fracs (toPt x))) ∂μ := by
  rw [C69_given h hd hh draw means empty rp rq hdr he hrun hZ hx hg hA]
  exact lintegral_mono fun ω => ENNReal.ofReal_le_ofReal (flipGiven_le hd _ _)

/-- How far a probability computed with `K` terms around the nearest multiple can be off. -/
def truncErr (var : ℝ) (K : ℕ) : ℝ :=
  2 * Real.exp (-(K * (K - 1) * Real.pi) / var) / (1 - Real.exp (-(2 * K * Real.pi) / var))

theorem sum_close' {α : Type} (l : List α) (f g : α → ℝ) (e : ℝ) (h : ∀ y ∈ l, |f y - g y| ≤ e) :
    |(l.map f).sum - (l.map g).sum| ≤ l.length * e := by
  induction l with
  | nil => simp
  | cons a l ih =>
    have h1 := abs_le.1 (h a (by simp))
    have h2 := abs_le.1 (ih fun i hi => h i (by simp [hi]))
    simp only [List.map_cons, List.sum_cons, List.length_cons]
    push_cast
    rw [abs_le]
    constructor <;> linarith

/-- C69.  The recorded `p_phase_cond` is `errSum` of the recorded fractional parts cut off at 1/2, up to the truncation of the sums, while the
outcome and the contributions are at most `(10 - K) √π`. -/
theorem C69_reported (h : OnMacroCode code delta pSwap M₀) (hd : 0 < delta) (hh : MacroHist M₀ n M) (r : MacroRnd)
    (hdr : ∀ i ∈ r.draw, i < M.layer.pts.length) (he : r.empty.length = 2 * M.layer.pts.length)
    {M' : Macro Pt} (hM' : macroApply M r = some M') {x : V} (hx : x ∈ PyDict.keys code.graph.nodes) {K : ℕ} (hK : 1 ≤ K) (hK' : K ≤ 10)
    (ho : |M'.outcome (toPt x)| ≤ (10 - K) * √Real.pi)
    (hc : ∀ y ∈ M'.gkpLinks (toPt x), |M'.contribution y| ≤ (10 - K) * √Real.pi) :
    ∃ p, M'.redProb (toPt x) = some p ∧
      |p - max 0 (min (1 / 2) (errSum M' delta (toPt x) (M'.fracs (toPt x))))| ≤
        (M'.gkpLinks (toPt x)).length * truncErr (2 * delta) K + truncErr (2 * (2 + (M'.pLinks (toPt x)).length) * delta) K := by
  obtain ⟨cs, h1, h2, h3, _, _, h6, h7⟩ := h.ok
  obtain ⟨M'', a1, a2⟩ := C56_value h1 h2 hh r hdr he
  rw [hM'] at a1
  obtain rfl := Option.some.inj a1
  obtain ⟨a3, s, s1, s2, p, s3, -, s5⟩ := a2 (toPt x) ((h6 _).2 ⟨x, hx, rfl⟩)
  have hfind : ((M'.micros (toPt x)).find? fun y => decide (M'.bodyIndex y = some 1)) = some s := by
    have hex : ((M'.micros (toPt x)).find? fun y => decide (M'.bodyIndex y = some 1)).isSome := by
      rw [List.find?_isSome]
      exact ⟨s, s1, by simpa using s2⟩
    obtain ⟨y, hy⟩ := Option.isSome_iff_exists.1 hex
    rw [hy]
    obtain ⟨w, _, _, huniq, _⟩ := a3 1 le_rfl (by norm_num)
    have hy1 := List.find?_some hy
    exact congrArg some ((huniq y (List.mem_of_find?_eq_some hy) (by simpa using hy1)).trans (huniq s s1 s2).symm)
  have hout : 2 * p - ((M'.pLinks (toPt x)).map M'.contribution).sum = M'.outcome (toPt x) := by
    unfold Macro.outcome
    rw [hfind, Option.bind_some, s3, Option.getD_some]
  rw [h3, if_pos hd, hout] at s5
  refine ⟨_, s5, ?_⟩
  have e1 := Gkp.C63_truncation_hom (var := 2 * (2 + (M'.pLinks (toPt x)).length) * delta) (by positivity) (M'.outcome (toPt x)) 0
    (N := 10) hK hK' (by exact_mod_cast ho)
  have e2 : |((M'.gkpLinks (toPt x)).map fun y => Gkp.zErrCond (2 * delta) (M'.contribution y) (useHomVal := true)).sum -
      ((M'.gkpLinks (toPt x)).map fun y => Gkp.errGiven (2 * delta) (M'.fracs (toPt x) (some y))).sum| ≤
      (M'.gkpLinks (toPt x)).length * truncErr (2 * delta) K := by
    refine sum_close' _ _ _ _ fun y hy => ?_
    rw [Macro.fracs, if_pos hy]
    exact Gkp.C63_truncation_hom (by positivity) _ 0 (N := 10) hK hK' (by exact_mod_cast hc y hy)
  have e3 : |Gkp.zErrCond (2 * (2 + (M'.pLinks (toPt x)).length) * delta) (M'.outcome (toPt x)) (useHomVal := true) -
      Gkp.errGiven (2 * (2 + (M'.pLinks (toPt x)).length) * delta) (M'.fracs (toPt x) none)| ≤
      truncErr (2 * (2 + (M'.pLinks (toPt x)).length) * delta) K := e1
  have hclip : ∀ a b e : ℝ, |a - b| ≤ e → |max 0 (min (1 / 2) a) - max 0 (min (1 / 2) b)| ≤ e := by
    intro a b e hab
    refine le_trans ?_ hab
    refine (abs_max_sub_max_le_max _ _ _ _).trans ?_
    rw [sub_self, abs_zero]
    refine max_le (abs_nonneg _) ?_
    refine (abs_min_sub_min_le_max _ _ _ _).trans ?_
    rw [sub_self, abs_zero]
    exact max_le (abs_nonneg _) le_rfl
  apply hclip
  unfold errSum
  have e2' := abs_le.1 e2
  have e3' := abs_le.1 e3
  rw [abs_le]
  constructor <;> linarith

/-! ### A concrete case -/

/-- C69.  Without swap-outs the hypotheses hold for every code, after any number of calls, and no neighbour is in a momentum state. -/
theorem C69_no_swap (h' : OnPolarCode code delta none M₀) (hd : 0 < delta) (hh : MacroHist M₀ n M) (draw : List ℕ) (means : Rnd)
    (empty : List ℕ) (rp rq : Rnd) (hdr : ∀ i ∈ draw, i < M.layer.pts.length) (he : empty.length = 2 * M.layer.pts.length)
    {Z : Bool × ℕ → Ω → ℝ} (hZ : NormalIid Z μ) :
    ∃ run : (Bool × ℕ → ℝ) → Macro Pt, (∀ z, macroApply M (macroRnd draw means empty rp rq z) = some (run z)) ∧
    ∀ x ∈ PyDict.keys code.graph.nodes,
      μ.real {ω | (run fun j => Z j ω).redBit (toPt x) ≠ (run fun _ => 0).redBit (toPt x)} =
        (1 - (1 - 2 * flipProb (2 * delta)) *
          (1 - 2 * flipProb delta) ^ ((run fun _ => 0).gkpPlanets (toPt x)).length) / 2 := by
  have h := h'.noSwap
  choose run hrun _ using fun z => C56_code h.toOnPolarCode hh (macroRnd draw means empty rp rq z) hdr he
  have hh' := MacroHist.apply (macroRnd draw means empty rp rq fun _ => 0) hh hdr he (hrun fun _ => 0)
  refine ⟨run, hrun, fun x hx => ?_⟩
  rw [(C69_flip h hd hh draw means empty rp rq hdr he hrun hZ).2 x hx fun y hy => h.all_gkp hh' (by omega) (List.mem_filter.1 hy).1]
  have hp : (run fun _ => 0).pLinks (toPt x) = [] := by
    obtain ⟨cs, h1, h2, _⟩ := h.ok
    obtain ⟨hH, hfr⟩ := hh'.inv h1 h2
    obtain ⟨ps₀, gs₀, hi⟩ := hH.inv h2
    have hok := h1.transport hi hfr
    unfold Macro.pLinks Macro.links
    rw [List.filter_eq_nil_iff]
    intro y hy
    obtain ⟨w, hw, hwy⟩ := List.mem_flatMap.1 hy
    have hyp : y ∈ (run fun _ => 0).layer.pts := by
      rcases hok.nbrs w (List.mem_filter.1 hw).1 with e | ⟨v, hv, e⟩
      · rw [e] at hwy; cases hwy
      · rw [e, List.mem_singleton] at hwy
        rw [hwy]; exact hv
    rw [h.all_gkp' hh' (by omega) y hyp]
    simp
  rw [hp, List.length_nil, Nat.cast_zero, add_zero]

example (ec : Ec) (b : Boundaries) : ∃ (Ω : Type) (_ : MeasurableSpace Ω) (μ : Measure Ω) (Z : Bool × ℕ → Ω → ℝ) (code : Code)
    (M : Macro Pt) (run : (Bool × ℕ → ℝ) → Macro Pt), NormalIid Z μ ∧ OnMacroCode code (1 / 10) none M ∧ code.ec = ec ∧
    code.boundaries = b ∧ (∃ draw means empty rp rq, ∀ z, macroApply M (macroRnd draw means empty rp rq z) = some (run z)) ∧
    ∀ x ∈ PyDict.keys code.graph.nodes,
      μ.real {ω | (run fun j => Z j ω).redBit (toPt x) ≠ (run fun _ => 0).redBit (toPt x)} =
        (1 - (1 - 2 * flipProb (2 * (1 / 10))) *
          (1 - 2 * flipProb (1 / 10)) ^ ((run fun _ => 0).gkpPlanets (toPt x)).length) / 2 := by
  obtain ⟨Ω, m, μ, hp, Z, hZ⟩ := normalIid_exists (Bool × ℕ)
  obtain ⟨code, M, hM, h1, h2⟩ := onMacroCode_exists ec b (delta := 1 / 10) (by norm_num) none
  obtain ⟨run, a1, a2⟩ := C69_no_swap hM.toOnPolarCode (by norm_num) .start [] ⟨fun _ => 0, fun _ => 0, fun _ => 0⟩
    (List.replicate (2 * M.layer.pts.length) 0) ⟨fun _ => 0, fun _ => 0, fun _ => 0⟩ ⟨fun _ => 0, fun _ => 0, fun _ => 0⟩
    (by simp) (by simp) hZ
  exact ⟨Ω, m, μ, Z, code, M, run, hZ, hM, h1, h2, ⟨_, _, _, _, _, a1⟩, a2⟩

end

end Flamingpy.Noise
