import Verif.Proofs.GaussSum
import Verif.Props.GkpLaw
import Verif.Props.Noise
import Verif.Props.Weights

/-!
# C64: the distribution of the outcomes of a `CVLayer`
-/

namespace Flamingpy.Noise

open Flamingpy Flamingpy.SurfaceCode MeasureTheory ProbabilityTheory

variable {Ω : Type*} [MeasurableSpace Ω] {μ : Measure Ω}

theorem sum_pts {pts : List V} (hnd : pts.Nodup) (f : V → ℝ) : ∑ i : Fin pts.length, f pts[i.val] = ∑ x ∈ pts.toFinset, f x := by
  rw [List.sum_toFinset _ hnd, ← List.sum_ofFn]
  congr 1
  apply List.ext_getElem <;> simp

/-- Linear combinations of the outcomes. -/
theorem outcomeP_law {code : Code} {pts : List V} (hnd : pts.Nodup) (delta : ℝ) (ps gs : List ℕ) {Z : ℕ → Ω → ℝ}
    (hZ : NormalIid Z μ) (c : V → ℝ) (S : Finset V) (hS : ∀ x ∈ S, x ∈ pts) :
    μ.map (fun ω => ∑ x ∈ S, c x * outcomeP code pts delta ps gs (fun i => Z i ω) x) = gaussianReal 0
      (∑ x ∈ S, c x ^ 2 * sdP delta ps gs (pts.idxOf x) ^ 2 +
        ∑ y ∈ pts.toFinset, (∑ x ∈ S, c x * edgeWeight code x y) ^ 2 * sdQ delta ps gs (pts.idxOf y) ^ 2).toNNReal := by
  set N := pts.length with hN
  have hg : Function.Injective (Sum.elim (fun i : Fin N => (i : ℕ)) fun i : Fin N => N + i) := by
    rintro (a | a) (b | b) h
    · simpa [Fin.ext_iff] using h
    · exact absurd h (by simp only [Sum.elim_inl, Sum.elim_inr]; omega)
    · exact absurd h (by simp only [Sum.elim_inl, Sum.elim_inr]; omega)
    · simpa [Fin.ext_iff] using h
  set a : Fin N ⊕ Fin N → ℝ := Sum.elim
    (fun j => (∑ x ∈ S, c x * edgeWeight code x pts[j.val]) * sdQ delta ps gs j)
    (fun i => if pts[i.val] ∈ S then c pts[i.val] * sdP delta ps gs i else 0) with ha
  have hsub : ∀ f : V → ℝ, ∑ x ∈ pts.toFinset, (if x ∈ S then f x else 0) = ∑ x ∈ S, f x := by
    intro f
    rw [← Finset.sum_filter]
    congr 1
    ext x
    simp only [Finset.mem_filter, List.mem_toFinset, and_iff_right_iff_imp]
    exact hS x
  have hix : ∀ i : Fin N, pts.idxOf pts[i.val] = i := fun i => hnd.idxOf_getElem i.1 i.2
  have hfun : (fun ω => ∑ x ∈ S, c x * outcomeP code pts delta ps gs (fun i => Z i ω) x) = fun ω => ∑ j ∈ Finset.univ,
      a j * Z (Sum.elim (fun i : Fin N => (i : ℕ)) (fun i : Fin N => N + i) j) ω := by
    funext ω
    rw [Fintype.sum_sum_type]
    simp only [ha, Sum.elim_inl, Sum.elim_inr, outcomeP]
    rw [add_comm]
    simp_rw [mul_add]
    rw [Finset.sum_add_distrib]
    congr 1
    · rw [← hsub, ← sum_pts hnd]
      refine Finset.sum_congr rfl fun i _ => ?_
      split_ifs
      · rw [hix]; ring
      · ring
    · simp_rw [Finset.mul_sum]
      rw [Finset.sum_comm]
      refine Finset.sum_congr rfl fun j _ => ?_
      rw [Finset.sum_mul, Finset.sum_mul]
      refine Finset.sum_congr rfl fun x _ => ?_
      ring
  rw [hfun, (hZ.comp hg).sum Finset.univ a, Fintype.sum_sum_type]
  congr 2
  simp only [ha, Sum.elim_inl, Sum.elim_inr]
  rw [add_comm]
  congr 1
  · rw [← hsub, ← sum_pts hnd]
    refine Finset.sum_congr rfl fun i _ => ?_
    split_ifs
    · rw [hix]; ring
    · ring
  · rw [← sum_pts hnd]
    refine Finset.sum_congr rfl fun i _ => ?_
    rw [hix]; ring

/-- The states of the modes after `apply_noise` do not depend on the outcomes. -/
theorem apply_fixed {code : Code} (h : IsCode code) {pts : List V} {delta : ℝ} {pSwap : Option ℝ}
    {supplied : Option (List (String × List ℕ))} {L₀ L : Layer V}
    (hL : OnCode code pts delta pSwap .initial supplied L₀) (hf : Fresh L₀) (hd : 0 < delta) {n : ℕ}
    (hh : Hist L₀ n L) (draw : List ℕ) (hdr : ∀ i ∈ draw, i < pts.length) :
    ∃ ps gs state, ∀ r, ∃ L', applyNoise L (syndromeInds code pts) code.syndrome draw r = some L' ∧
      L'.pInds = some ps ∧ L'.gkpInds = some gs ∧ L'.attrs.state = state ∧ L'.states = [("p", ps), ("GKP", gs)] ∧
      ∀ x ∈ code.syndrome, L'.attrs.homP x = some (outcomeP code pts delta ps gs r.z x) ∧
        L'.attrs.bit x = some (Gkp.gkpBinner (outcomeP code pts delta ps gs r.z x)) := by
  obtain ⟨L1, h1⟩ := C45_total hf hh draw (by
    obtain ⟨ps, gs, hi⟩ := hh.inv hf
    rw [hi.pts, hL.fields.1]
    exact hdr)
  have hH : Hist L₀ (n + 1) L1 := .populate draw hh (by
    obtain ⟨ps, gs, hi⟩ := hh.inv hf
    rw [hi.pts, hL.fields.1]
    exact hdr) h1
  obtain ⟨ps, gs, hi⟩ := hH.inv hf
  have hst : L1.states = [("p", ps), ("GKP", gs)] := by
    rcases hi.states with ⟨_, _, h0⟩ | ⟨h0, _⟩
    · omega
    · exact h0
  refine ⟨ps, gs, L1.attrs.state, fun r => ?_⟩
  obtain ⟨L', ps', gs', a1, a2, a3, a4⟩ := C53_apply_noise_initial h hL hf hd hh draw hdr r
  have hsame : Same L1 L' := by
    unfold applyNoise at a1
    simp only [Option.bind_eq_bind, Option.bind_eq_some_iff] at a1
    obtain ⟨L1', e1, L2, e2, e3⟩ := a1
    rw [h1] at e1
    obtain rfl := Option.some.inj e1
    exact (measureHom_same e2).1.trans (innerDecoder_same e3).1
  have hi' := (hi.same hsame).inds (by omega)
  rw [a2, a3] at hi'
  obtain rfl := Option.some.inj hi'.1
  obtain rfl := Option.some.inj hi'.2
  exact ⟨L', a1, a2, a3, hsame.state, hsame.states.trans hst, a4⟩

/-- Specification: the variance of the position noise of a state with the given label. -/
noncomputable def varQ (delta : ℝ) (label : String) : ℝ := if label = "p" then 1 / (2 * delta) else delta / 2

/-- C64.  If the random numbers are independent and standard normal, the momentum outcomes recorded by the first `apply_noise` (in the
initial sampling order) are jointly normal with mean zero: every linear combination is, and its variance is that of independent
momentum noise `delta / 2` on every measured mode and independent position noise on every mode, carried to the
neighbours with the weights of the edges.  The bits are the binned outcomes. -/
theorem C64_normal {code : Code} (h : IsCode code) {pts : List V} {delta : ℝ} {pSwap : Option ℝ}
    {supplied : Option (List (String × List ℕ))} {L₀ : Layer V}
    (hL : OnCode code pts delta pSwap .initial supplied L₀) (hf : Fresh L₀) (hd : 0 < delta) (draw : List ℕ)
    (hdr : ∀ i ∈ draw, i < pts.length) {Z : ℕ → Ω → ℝ} (hZ : NormalIid Z μ) (u : ℕ → ℝ) (b : ℕ → ℤ) :
    ∃ (label : V → String) (hom : Ω → V → ℝ),
      (∀ ω, ∃ L', applyNoise L₀ (syndromeInds code pts) code.syndrome draw ⟨fun i => Z i ω, u, b⟩ = some L' ∧
        (∀ y ∈ PyDict.keys code.graph.nodes, L'.attrs.state y = some (label y) ∧ (label y = "p" ∨ label y = "GKP")) ∧
        (∀ i (hi : i < pts.length), label pts[i] = "p" ↔ ∃ ps, L'.pInds = some ps ∧ i ∈ ps) ∧
        ∀ x ∈ code.syndrome, L'.attrs.homP x = some (hom ω x) ∧ L'.attrs.bit x = some (Gkp.gkpBinner (hom ω x))) ∧
      (∀ x, Measurable fun ω => hom ω x) ∧
      ∀ c : V → ℝ, μ.map (fun ω => ∑ x ∈ code.syndrome.toFinset, c x * hom ω x) = gaussianReal 0
        (∑ x ∈ code.syndrome.toFinset, c x ^ 2 * (delta / 2) +
          ∑ y ∈ (PyDict.keys code.graph.nodes).toFinset,
            (∑ x ∈ code.syndrome.toFinset, c x * edgeWeight code x y) ^ 2 * varQ delta (label y)).toNNReal := by
  obtain ⟨ps, gs, state, ha⟩ := apply_fixed h hL hf hd .start draw hdr
  have hnd : pts.Nodup := hL.perm.nodup_iff.2 h.ok.1.nodesNd
  have hpn : pts.toFinset = (PyDict.keys code.graph.nodes).toFinset := by
    ext x
    rw [List.mem_toFinset, List.mem_toFinset, hL.perm.mem_iff]
  have hsyn : ∀ x ∈ code.syndrome, x ∈ pts := fun x hx => by
    rw [hL.perm.mem_iff, h.ok.1.graphNodes]
    exact qubit_isNode ((h.ok.1.syndrome x).1 hx)
  have key : (∀ i (hi : i < pts.length), state pts[i] = some (if i ∈ ps then "p" else "GKP")) ∧
      (∀ i < pts.length, i ∈ ps ∨ i ∈ gs) ∧ ∀ i ∈ ps, i ∉ gs := by
    obtain ⟨L', a1, a2, a3, a4, a5, -⟩ := ha ⟨fun _ => 0, u, b⟩
    have hH := Hist.apply (L₀ := L₀) .start _ _ draw _ (by rw [hL.fields.1]; exact hdr) a1
    obtain ⟨ps', gs', hi⟩ := hH.inv hf
    have hp : L'.pts = pts := hi.pts.trans hL.fields.1
    obtain ⟨e1, e2⟩ := hi.inds (by omega)
    rw [a2] at e1
    rw [a3] at e2
    obtain rfl := Option.some.inj e1
    obtain rfl := Option.some.inj e2
    refine ⟨fun i hi' => ?_, ?_, hi.disj⟩
    · rw [← a4]
      have := hi.labels (by omega) i (by rw [hp]; exact hi')
      simpa only [hp] using this
    · have := hi.first (by omega)
      rwa [hp] at this
  obtain ⟨k1, k2, k3⟩ := key
  refine ⟨fun y => if pts.idxOf y ∈ ps then "p" else "GKP", fun ω => outcomeP code pts delta ps gs fun i => Z i ω,
    fun ω => ?_, ?_, fun c => ?_⟩
  · obtain ⟨L', a1, a2, a3, a4, a5, a6⟩ := ha ⟨fun i => Z i ω, u, b⟩
    refine ⟨L', a1, fun y hy => ⟨?_, ?_⟩, fun i hi => ?_, a6⟩
    · have hy' := List.idxOf_lt_length_of_mem (hL.perm.mem_iff.2 hy)
      have := k1 _ hy'
      rw [List.getElem_idxOf] at this
      rw [a4]
      exact this
    · dsimp only
      split_ifs <;> simp
    · dsimp only
      rw [hnd.idxOf_getElem i hi, a2]
      simp
  · intro x
    unfold outcomeP
    have := hZ.meas
    fun_prop
  · rw [outcomeP_law hnd delta ps gs hZ c _ (fun x hx => hsyn x (List.mem_toFinset.1 hx)), hpn]
    congr 2
    congr 1
    · refine Finset.sum_congr rfl fun x hx => ?_
      have := List.idxOf_lt_length_of_mem (hsyn x (List.mem_toFinset.1 hx))
      rw [sdP, if_pos (k2 _ this).symm, Real.sq_sqrt (by positivity)]
    · refine Finset.sum_congr rfl fun y hy => ?_
      congr 1
      rw [← hpn, List.mem_toFinset] at hy
      have := k2 _ (List.idxOf_lt_length_of_mem hy)
      unfold sdQ varQ
      by_cases hp : pts.idxOf y ∈ ps
      · have h2 : √(2 * delta) ^ 2 = 2 * delta := Real.sq_sqrt (by positivity)
        simp only [hp, k3 _ hp, if_true, if_false, div_pow, h2, one_pow]
      · have h2 : √(delta / 2) ^ 2 = delta / 2 := Real.sq_sqrt (by positivity)
        simp only [hp, this.resolve_left hp, h2, if_true, if_false]
        rw [if_neg (by decide)]

theorem edgeWeight_sq {code : Code} (hw : ∀ x y w, PyDict.get? code.graph.edges s(x, y) = some w → w.1 = 1 ∨ w.1 = -1) (x y : V) :
    (edgeWeight code x y : ℝ) ^ 2 = if s(x, y) ∈ PyDict.keys code.graph.edges then 1 else 0 := by
  unfold edgeWeight
  cases hg : PyDict.get? code.graph.edges s(x, y) with
  | none => rw [if_neg ((PyDict.get?_eq_none _ _).1 hg)]; simp
  | some w =>
    rw [if_pos]
    · rcases hw x y w hg with h | h <;> simp [h]
    · by_contra hc
      rw [(PyDict.get?_eq_none _ _).2 hc] at hg
      cases hg

/-- C64.  On a code with edge weights 1 and -1 and without p-squeezed states, the outcome of every syndrome qubit is normal with
variance `(number of neighbours + 1) * delta / 2`. -/
theorem C64_gkp {code : Code} (h : IsCode code)
    (hw : ∀ x y w, PyDict.get? code.graph.edges s(x, y) = some w → w.1 = 1 ∨ w.1 = -1) {pts : List V} {delta : ℝ} {L₀ : Layer V}
    (hL : OnCode code pts delta none .initial none L₀) (hd : 0 < delta) (draw : List ℕ)
    (hdr : ∀ i ∈ draw, i < pts.length) {Z : ℕ → Ω → ℝ} (hZ : NormalIid Z μ) (u : ℕ → ℝ) (b : ℕ → ℤ) :
    ∃ hom : Ω → V → ℝ,
      (∀ ω, ∃ L', applyNoise L₀ (syndromeInds code pts) code.syndrome draw ⟨fun i => Z i ω, u, b⟩ = some L' ∧
        (∀ y ∈ PyDict.keys code.graph.nodes, L'.attrs.state y = some "GKP") ∧
        ∀ x ∈ code.syndrome, L'.attrs.homP x = some (hom ω x) ∧ L'.attrs.bit x = some (Gkp.gkpBinner (hom ω x))) ∧
      (∀ x, Measurable fun ω => hom ω x) ∧
      ∀ x ∈ code.syndrome, μ.map (fun ω => hom ω x) = gaussianReal 0 (((neighbors code x).length + 1) * delta / 2).toNNReal := by
  have hf := hL.fresh h
  obtain ⟨label, hom, h1, h2, h3⟩ := C64_normal h hL hf hd draw hdr hZ u b
  have hprob : IsProbabilityMeasure μ := hZ.indep.isProbabilityMeasure
  have hlab : ∀ y ∈ PyDict.keys code.graph.nodes, label y = "GKP" := by
    intro y hy
    obtain ⟨ω⟩ : Nonempty Ω := nonempty_of_isProbabilityMeasure μ
    obtain ⟨L', a1, a2, a3, -⟩ := h1 ω
    have hH := Hist.apply (L₀ := L₀) .start _ _ draw _ (by rw [hL.fields.1]; exact hdr) a1
    obtain ⟨f1, f2, f3, f4, f5, f6, f7⟩ := hL.fields
    obtain ⟨ps', gs', b1, b2, b3, _, b5⟩ := C45_alternates hf hH (by omega) (by rw [f3]; simp)
    have hp0 : ps' = [] := by
      rw [(C53_constructor none none).2.1 rfl] at f6
      unfold Layer.pInds at b1
      rw [← Option.some.inj f6] at b1
      simpa [PyDict.get?] using b1.symm
    refine ((a2 y hy).2).resolve_left fun hc => ?_
    have hy' := List.idxOf_lt_length_of_mem (hL.perm.mem_iff.2 hy)
    have := (a3 _ hy').1 (by rw [List.getElem_idxOf]; exact hc)
    rw [b2, hp0] at this
    obtain ⟨ps, e1, e2⟩ := this
    rw [← Option.some.inj e1] at e2
    cases e2
  refine ⟨hom, fun ω => ?_, h2, fun x hx => ?_⟩
  · obtain ⟨L', a1, a2, a3, a4⟩ := h1 ω
    exact ⟨L', a1, fun y hy => by rw [(a2 y hy).1, hlab y hy], a4⟩
  · have := h3 fun y => if y = x then 1 else 0
    have hx' := List.mem_toFinset.2 hx
    simp only [ite_mul, one_mul, zero_mul, Finset.sum_ite_eq', hx', if_true, ite_pow, one_pow, ne_eq, OfNat.ofNat_ne_zero,
      not_false_eq_true, zero_pow] at this
    rw [this]
    congr 2
    have hsum : ∑ y ∈ (PyDict.keys code.graph.nodes).toFinset, (edgeWeight code x y : ℝ) ^ 2 * varQ delta (label y) =
        (neighbors code x).length * (delta / 2) := by
      have : ∀ y ∈ (PyDict.keys code.graph.nodes).toFinset, (edgeWeight code x y : ℝ) ^ 2 * varQ delta (label y) =
          if s(x, y) ∈ PyDict.keys code.graph.edges then delta / 2 else 0 := by
        intro y hy
        rw [edgeWeight_sq hw, hlab y (List.mem_toFinset.1 hy), varQ, if_neg (show ¬ "GKP" = "p" by decide), ite_mul, one_mul, zero_mul]
      rw [Finset.sum_congr rfl this, ← Finset.sum_filter, Finset.sum_const, nsmul_eq_mul]
      congr 2
      unfold neighbors
      rw [← List.toFinset_card_of_nodup (h.ok.1.nodesNd.filter _)]
      congr 1
      ext y
      simp
    rw [hsum]
    ring

/-- C64.  The blueprint weight of a qubit on such a code is computed from the probability that its bit is wrong, given the fractional
part of its outcome, up to the truncation of the sums: `errGiven` integrates to the probability of bit 1, over every set
of fractional parts (the noiseless bit is 0). -/
theorem C64_blueprint {code : Code} (h : IsCode code)
    (hw : ∀ x y w, PyDict.get? code.graph.edges s(x, y) = some w → w.1 = 1 ∨ w.1 = -1) {pts : List V} {delta : ℝ} {L₀ : Layer V}
    (hL : OnCode code pts delta none .initial none L₀) (hd : 0 < delta) (draw : List ℕ)
    (hdr : ∀ i ∈ draw, i < pts.length) {Z : ℕ → Ω → ℝ} (hZ : NormalIid Z μ) (u : ℕ → ℝ) (b : ℕ → ℤ) {x : V}
    (hx : x ∈ code.syndrome) {o : Weights.Opts} (ho : o.probPrecomputed = false) (hod : o.delta = some delta)
    (hom : o.integer = true → 1 ≤ o.multiplier) :
    ∃ (bit : Ω → ℤ) (frac prob : Ω → ℝ),
      (∀ ω, ∃ L' hv, applyNoise L₀ (syndromeInds code pts) code.syndrome draw ⟨fun i => Z i ω, u, b⟩ = some L' ∧
        L'.attrs.homP x = some hv ∧ frac ω = (Gkp.gkpBinnerFrac hv).2 ∧ L'.attrs.bit x = some (bit ω) ∧
        Weights.blueprintWeight o ⟨L'.attrs.state, L'.attrs.homP, fun _ => none⟩ code.graph x =
          .ok (Weights.toWeight o (Weights.clip (prob ω)))) ∧
      (∀ A, MeasurableSet A → μ {ω | bit ω ≠ 0 ∧ frac ω ∈ A} =
        ∫⁻ ω in {ω | frac ω ∈ A}, ENNReal.ofReal (Gkp.errGiven (((neighbors code x).length + 1) * delta) (frac ω)) ∂μ) ∧
      ∀ ω, |prob ω - Gkp.errGiven (((neighbors code x).length + 1) * delta) (frac ω)| ≤
        2 * Real.exp (-(90 * Real.pi) / (((neighbors code x).length + 1) * delta)) /
          (1 - Real.exp (-(20 * Real.pi) / (((neighbors code x).length + 1) * delta))) := by
  obtain ⟨hv, h1, h2, h3⟩ := C64_gkp h hw hL hd draw hdr hZ u b
  set var := ((neighbors code x).length + 1) * delta with hvar
  have hvp : 0 < var := by positivity
  refine ⟨fun ω => Gkp.gkpBinner (hv ω x), fun ω => (Gkp.gkpBinnerFrac (hv ω x)).2, fun ω => Gkp.zErrCond var (hv ω x),
    fun ω => ?_, fun A hA => ?_, fun ω => ?_⟩
  · obtain ⟨L', a1, a2, a3⟩ := h1 ω
    refine ⟨L', hv ω x, a1, (a3 x hx).1, rfl, (a3 x hx).2, ?_⟩
    have hb : Weights.BlueprintOk code o ⟨L'.attrs.state, L'.attrs.homP, fun _ => none⟩ :=
      ⟨fun v hv => ⟨_, a2 v hv⟩, fun hc => absurd hc (by simp [ho]), fun _ => ⟨⟨delta, hod, hd⟩, fun q hq => ⟨_, (a3 q hq).1⟩⟩, hom⟩
    obtain ⟨-, -, hbw⟩ := Weights.blueprintWeight_ok h o _ hb hx
    rw [hbw, if_pos, Weights.qubitProb, ho, if_neg (by decide), hod]
    · simp only [(a3 x hx).1, Option.getD_some]
      rfl
    · unfold Weights.squeezedNeighbors
      rw [List.countP_eq_zero.2]
      · omega
      · intro v hv
        have : v ∈ PyDict.keys code.graph.nodes := (List.mem_filter.1 hv).1
        simp [a2 v this]
  · have hc := Gkp.C63_conditional hvp 0 hA
    simp only [Int.cast_zero, zero_mul, zero_add, Int.zero_emod] at hc
    rw [← h3 x hx] at hc
    have hmf := h2 x
    have hA' : MeasurableSet {y | (Gkp.gkpBinnerFrac y).2 ∈ A} := Gkp.measurable_binnerFrac.snd hA
    have hB : MeasurableSet {y | Gkp.gkpBinner y ≠ 0 ∧ (Gkp.gkpBinnerFrac y).2 ∈ A} :=
      (Gkp.measurable_binner (measurableSet_singleton (0 : ℤ)).compl).inter hA'
    have hm : Measurable fun y => ENNReal.ofReal (Gkp.errGiven var (Gkp.gkpBinnerFrac y).2) :=
      (Gkp.measurable_errGiven hvp).comp Gkp.measurable_binnerFrac.snd
    rw [Measure.map_apply hmf hB, setLIntegral_map hA' hm hmf] at hc
    exact hc
  · have := Gkp.C63_truncation hvp (hv ω x) 0 (N := 10) (by norm_num)
    convert this using 3 <;> norm_num

/-- The edge weights of a code are those of its polarity. -/
theorem pm_weights {o : SetOrder} {ec : Ec} {b : Boundaries} {dims : Fin 3 → ℕ} {pol : Option (V → V → ℤ)}
    {code : Code} (hd : ∀ i, 2 ≤ dims i) (hc : surfaceCode o ec b dims pol = some code)
    (hpol : ∀ u v, weightOf pol u v = 1 ∨ weightOf pol u v = -1) :
    ∀ x y w, PyDict.get? code.graph.edges s(x, y) = some w → w.1 = 1 ∨ w.1 = -1 := by
  intro x y w hw
  have hg := goodDims_of_two hd (boundsOf ec b)
  have hv : ∀ x, x ∈ o.ord 0 (denested dims (boundsOf ec b)) ↔ x ∈ denested dims (boundsOf ec b) :=
    fun x => (o.perm 0 _).mem_iff
  have hgr : code.graph = rhgGraph dims (boundsOf ec b) pol (o.ord 0 (denested dims (boundsOf ec b))) := by
    unfold surfaceCode at hc
    simp only at hc
    split_ifs at hc
    rw [← Option.some.inj hc]
  rw [hgr] at hw
  obtain ⟨⟨u, v, p', _, hop⟩, _⟩ := (rhgGraph_built dims (boundsOf ec b) pol _).edgeVal _ w.1 w.2 hw
  rw [ops_edge hg pol hv] at hop
  rw [hop.2.2.1]
  exact hpol u v

-- a periodic code of size three with alternating polarity, delta = 1/10: all hypotheses of C64_blueprint hold
example : ∃ (Ω : Type) (_ : MeasurableSpace Ω) (μ : Measure Ω) (Z : ℕ → Ω → ℝ) (code : Code) (pts : List V) (L₀ : Layer V)
    (o : Weights.Opts), NormalIid Z μ ∧ IsCode code ∧ OnCode code pts (1 / 10) none .initial none L₀ ∧
    (∀ x y w, PyDict.get? code.graph.edges s(x, y) = some w → w.1 = 1 ∨ w.1 = -1) ∧
    o.probPrecomputed = false ∧ o.delta = some (1 / 10) ∧ (o.integer = true → 1 ≤ o.multiplier) := by
  obtain ⟨code, h, -⟩ := C54_constructor_total idOrder .primal .periodic (dims := fun _ => 3) (by simp) (some alternatingPolarity)
  have hcode : IsCode code := ⟨idOrder, _, _, _, _, by simp, h⟩
  obtain ⟨L, hL⟩ : ∃ L, codeLayer code (PyDict.keys code.graph.nodes) (1 / 10) none .initial none = some L := by
    unfold codeLayer
    rw [(C53_constructor none none).2.1 rfl]
    exact ⟨_, rfl⟩
  obtain ⟨Ω, m, μ, hp, Z, hZ⟩ := normalIid_exists ℕ
  refine ⟨Ω, m, μ, Z, code, _, L, { method := "blueprint", delta := some (1 / 10) }, hZ, hcode, ⟨List.Perm.refl _, hL⟩,
    pm_weights (by simp) h ?_, rfl, rfl, by simp⟩
  intro u v
  simp only [weightOf, alternatingPolarity]
  split_ifs
  · exact neg_one_pow_eq_or ℤ _
  · exact neg_one_pow_eq_or ℤ _
  · exact neg_one_pow_eq_or ℤ _
  · exact Or.inl rfl

end Flamingpy.Noise
