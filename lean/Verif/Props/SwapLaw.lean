import Verif.Props.Noise
import Verif.Proofs.SwapExists

/-!
# C67: the law of swap-outs

With swap-out probability `p`, every mode is labelled p-squeezed independently with probability `p` at every call of
`populate_states`; but from the second call on, modes labelled GKP may get no noise at all, with the probability computed here.
-/

namespace Flamingpy.Noise

open MeasureTheory ProbabilityTheory

variable {Ω : Type*} [MeasurableSpace Ω] {μ : Measure Ω} [IsProbabilityMeasure μ] {P : Type} [DecidableEq P]

/-- Layers reached by `n` calls of `populate_states`, the `k`-th of them drawing `draw k`, with any successful calls of
`measure_hom` and `inner_decoder` and any changes of bits in between. -/
inductive Calls (draw : ℕ → List ℕ) (L₀ : Layer P) : ℕ → Layer P → Prop
  | start : Calls draw L₀ 0 L₀
  | populate {n L L'} : Calls draw L₀ n L → populate L (draw n) = some L' → Calls draw L₀ (n + 1) L'
  | measure {n L L'} (quad inds isArray m c propagate r) : Calls draw L₀ n L →
      measureHom L quad inds isArray m c propagate r = some L' → Calls draw L₀ n L'
  | decode {n L L'} (coords) : Calls draw L₀ n L → innerDecoder L coords = some L' → Calls draw L₀ n L'
  | bits {n L} (b : P → Option ℤ) : Calls draw L₀ n L → Calls draw L₀ n { L with attrs := { L.attrs with bit := b } }

theorem Calls.inv {draw : ℕ → List ℕ} {L₀ L : Layer P} {n : ℕ} {p : ℝ} (hnd : L₀.pts.Nodup) (hst : L₀.states = [("p", [])])
    (hp : L₀.pSwap = some p) (hd : ∀ k, ∀ i ∈ draw k, i < L₀.pts.length) (h : Calls draw L₀ n L) :
    ∃ ps gs, Inv L₀ L n ps gs ∧ (n = 0 → ps = []) ∧ (∀ k, n = k + 1 → ps.toFinset = modeSet p L₀.pts.length (draw k).toFinset) ∧
      gs.toFinset = swapGkp L₀.pts.length (fun k => modeSet p L₀.pts.length (draw k).toFinset) n := by
  induction h with
  | start =>
    exact ⟨[], [], ⟨rfl, rfl, rfl, rfl, rfl, fun _ _ _ _ _ _ => rfl, Or.inl ⟨hst, rfl, rfl⟩, by simp, by simp, by simp, by omega, by omega⟩,
      fun _ => rfl, by omega, rfl⟩
  | @populate n L L' _ hpop ih =>
    obtain ⟨ps, gs, hi, h0, h1, h2⟩ := ih
    obtain ⟨L'', e, hi'⟩ := hi.next hnd (draw n) (by rw [hi.pts]; exact hd n)
    rw [hpop] at e
    obtain rfl := Option.some.inj e
    have hP : (nextP L (draw n) ps).toFinset = modeSet p L₀.pts.length (draw n).toFinset := by
      unfold nextP modeSet swaps
      rw [hi.pSwap, hp, hi.pts]
      by_cases hp0 : p = 0
      · subst hp0
        rw [if_neg (by rintro ⟨x, e, hx⟩; exact hx (Option.some.inj e).symm), if_pos rfl]
        rcases n with _ | n
        · rw [h0 rfl]; rfl
        · rw [h1 n rfl, modeSet, if_pos rfl]
      · rw [if_pos ⟨p, rfl, hp0⟩, if_neg hp0]
        by_cases hp1 : p = 1
        · subst hp1
          rw [if_pos rfl, if_pos rfl, List.toFinset_range]
        · rw [if_neg (fun e => hp1 (Option.some.inj e)), if_neg hp1]
    refine ⟨_, _, hi', by omega, fun k hk => ?_, ?_⟩
    · obtain rfl : n = k := by omega
      exact hP
    · rw [swapGkp, ← h2, ← hP]
      ext i
      rw [List.mem_toFinset, mem_compl, hi.pts]
      simp
  | measure _ _ _ _ _ _ _ _ hm ih =>
    obtain ⟨ps, gs, hi, h'⟩ := ih
    exact ⟨ps, gs, hi.same (measureHom_same hm).1, h'⟩
  | decode _ _ hm ih =>
    obtain ⟨ps, gs, hi, h'⟩ := ih
    exact ⟨ps, gs, hi.same (innerDecoder_same hm).1, h'⟩
  | bits b _ ih =>
    obtain ⟨ps, gs, hi, h'⟩ := ih
    exact ⟨ps, gs, hi.same (bits_same _ b), h'⟩

theorem calls_inds {L₀ : Layer P} (hnd : L₀.pts.Nodup) (hst : L₀.states = [("p", [])]) {p : ℝ} (hp : L₀.pSwap = some p)
    {num : ℕ → Ω → ℕ} {choice : ℕ → Ω → ℕ → List ℕ} (h : SwapRng L₀.pts.length p num choice μ) {n : ℕ} {ω : Ω} {L : Layer P}
    (hL : Calls (fun k => squeezedDraw (num k ω) (choice k ω)) L₀ (n + 1) L) :
    ∃ ps gs, L.pInds = some ps ∧ L.gkpInds = some gs ∧ ps.toFinset = modeSet p L₀.pts.length (drawSet num choice n ω) ∧
      gs.toFinset = swapGkp L₀.pts.length (fun k => modeSet p L₀.pts.length (drawSet num choice k ω)) (n + 1) ∧
      L.pts = L₀.pts ∧ ∀ i (hi : i < L₀.pts.length), L.attrs.state L₀.pts[i] = some (if i ∈ ps then "p" else "GKP") := by
  obtain ⟨ps, gs, hi, -, h1, h2⟩ := hL.inv hnd hst hp fun k i hik => (h.arrangement k ω _ (h.range k ω)).2.2 i hik
  obtain ⟨a1, a2⟩ := hi.inds (by omega)
  refine ⟨ps, gs, a1, a2, h1 n rfl, h2, hi.pts, fun i hi' => ?_⟩
  have := hi.labels (by omega) i (by rw [hi.pts]; exact hi')
  simpa only [hi.pts] using this

/-- C67.  With swap-out probability `p`, at every call of `populate_states` every node is labelled 'p' with probability `p` and
'GKP' otherwise, independently of the others. -/
theorem C67_labels {L₀ : Layer P} (hnd : L₀.pts.Nodup) (hst : L₀.states = [("p", [])]) {p : ℝ} (hp : L₀.pSwap = some p)
    {num : ℕ → Ω → ℕ} {choice : ℕ → Ω → ℕ → List ℕ} (h : SwapRng L₀.pts.length p num choice μ) {n : ℕ} {L : Ω → Layer P}
    (hL : ∀ ω, Calls (fun k => squeezedDraw (num k ω) (choice k ω)) L₀ (n + 1) (L ω)) {A : Finset P} (hA : A ⊆ L₀.pts.toFinset) :
    μ.real {ω | ∀ x ∈ L₀.pts, (L ω).attrs.state x = some (if x ∈ A then "p" else "GKP")} =
      p ^ A.card * (1 - p) ^ (L₀.pts.length - A.card) := by
  classical
  set B := A.image fun x => L₀.pts.idxOf x with hB
  have hmem : ∀ x ∈ A, x ∈ L₀.pts := fun x hx => List.mem_toFinset.1 (hA hx)
  have hcard : B.card = A.card := Finset.card_image_of_injOn fun x hx y hy e => by
    rw [← List.idxOf_inj (hmem x hx)]; exact e
  have hBr : B ⊆ Finset.range L₀.pts.length := by
    intro i hi
    obtain ⟨x, hx, rfl⟩ := Finset.mem_image.1 hi
    exact Finset.mem_range.2 (List.idxOf_lt_length_of_mem (hmem x hx))
  rw [← hcard, ← h.draws.law n B hBr]
  congr 1
  ext ω
  obtain ⟨ps, gs, -, -, e1, -, e2, e3⟩ := calls_inds hnd hst hp h (hL ω)
  have hBi : ∀ i (hi : i < L₀.pts.length), i ∈ B ↔ L₀.pts[i] ∈ A := by
    intro i hi
    rw [hB, Finset.mem_image]
    constructor
    · rintro ⟨x, hx, rfl⟩
      rw [List.getElem_idxOf]
      exact hx
    · intro hx
      exact ⟨_, hx, hnd.idxOf_getElem i hi⟩
  rw [Set.mem_ofPred_eq, Set.mem_ofPred_eq, ← e1]
  constructor
  · intro hx
    ext i
    rw [List.mem_toFinset]
    by_cases hi : i < L₀.pts.length
    · have h3 := hx _ (List.getElem_mem hi)
      rw [e3 i hi, Option.some.injEq] at h3
      rw [hBi i hi]
      by_cases c1 : i ∈ ps <;> by_cases c2 : L₀.pts[i] ∈ A <;> simp_all
    · refine ⟨fun hc => absurd ?_ hi, fun hc => absurd (Finset.mem_range.1 (hBr hc)) hi⟩
      have := h.draws.subset n ω
      rw [← e1] at this
      exact Finset.mem_range.1 (this (List.mem_toFinset.2 hc))
  · intro he x hx
    obtain ⟨i, hi, rfl⟩ := List.getElem_of_mem hx
    rw [e3 i hi]
    have := hBi i hi
    rw [← he, List.mem_toFinset] at this
    simp only [this]

/-- C67.  The joint law of the two lists of indices after the `n + 1`-st call: every mode is independently in `p_inds`, with probability
`p`, or in `gkp_inds`, with probability `(1 - p) (1 - (p - 1) ^ (n + 1)) / (2 - p)`, or in none. -/
theorem C67_pattern {L₀ : Layer P} (hnd : L₀.pts.Nodup) (hst : L₀.states = [("p", [])]) {p : ℝ} (hp : L₀.pSwap = some p) (hp1 : p ≤ 1)
    {num : ℕ → Ω → ℕ} {choice : ℕ → Ω → ℕ → List ℕ} (h : SwapRng L₀.pts.length p num choice μ) {n : ℕ} {L : Ω → Layer P}
    (hL : ∀ ω, Calls (fun k => squeezedDraw (num k ω) (choice k ω)) L₀ (n + 1) (L ω)) {A G : Finset ℕ}
    (hA : A ⊆ Finset.range L₀.pts.length) (hG : G ⊆ Finset.range L₀.pts.length) (hd : Disjoint A G) {g : ℝ}
    (hg : g = (1 - p) * (1 - (p - 1) ^ (n + 1)) / (2 - p)) :
    μ.real {ω | ∃ ps gs, (L ω).pInds = some ps ∧ (L ω).gkpInds = some gs ∧ ps.toFinset = A ∧ gs.toFinset = G} =
      p ^ A.card * g ^ G.card * (1 - p - g) ^ (L₀.pts.length - A.card - G.card) := by
  rw [hg, ← swapGkpProb_closed hp1, ← h.draws.pattern n hA hG hd]
  congr 1
  ext ω
  obtain ⟨ps, gs, a1, a2, e1, e2, -⟩ := calls_inds hnd hst hp h (hL ω)
  rw [Set.mem_ofPred_eq, Set.mem_ofPred_eq, ← e1, ← e2, a1, a2]
  constructor
  · rintro ⟨ps', gs', b1, b2, b3, b4⟩
    obtain rfl := Option.some.inj b1
    obtain rfl := Option.some.inj b2
    exact ⟨b3, b4⟩
  · rintro ⟨b3, b4⟩
    exact ⟨ps, gs, rfl, rfl, b3, b4⟩

/-- C67.  After the `n + 1`-st call a mode is labelled GKP and yet in none of the lists (so that it gets no noise) with the
probability `(1 - p) ((1 - p) + (p - 1) ^ (n + 1)) / (2 - p)`. -/
theorem C67_lost {L₀ : Layer P} (hnd : L₀.pts.Nodup) (hst : L₀.states = [("p", [])]) {p : ℝ} (hp : L₀.pSwap = some p) (hp1 : p ≤ 1)
    {num : ℕ → Ω → ℕ} {choice : ℕ → Ω → ℕ → List ℕ} (h : SwapRng L₀.pts.length p num choice μ) {n : ℕ} {L : Ω → Layer P}
    (hL : ∀ ω, Calls (fun k => squeezedDraw (num k ω) (choice k ω)) L₀ (n + 1) (L ω)) {i : ℕ} (hi : i < L₀.pts.length) :
    μ.real {ω | (L ω).attrs.state L₀.pts[i] = some "GKP" ∧ ∃ ps gs, (L ω).pInds = some ps ∧ (L ω).gkpInds = some gs ∧ i ∉ ps ∧ i ∉ gs} =
      (1 - p) * ((1 - p) + (p - 1) ^ (n + 1)) / (2 - p) := by
  classical
  have hD := h.draws
  set D := fun k ω => modeSet p L₀.pts.length (drawSet num choice k ω) with hDdef
  have hs1 : ({i} : Finset ℕ) ⊆ Finset.range L₀.pts.length := by simpa using hi
  have e0 : {ω | (L ω).attrs.state L₀.pts[i] = some "GKP" ∧ ∃ ps gs, (L ω).pInds = some ps ∧ (L ω).gkpInds = some gs ∧ i ∉ ps ∧ i ∉ gs} =
      D n ⁻¹' {B | B ∩ {i} = ∅} ∩ (fun ω => swapGkp L₀.pts.length (fun k => D k ω) n) ⁻¹' {B | B ∩ {i} = {i}} := by
    ext ω
    obtain ⟨ps, gs, a1, a2, e1, e2, -, e3⟩ := calls_inds hnd hst hp h (hL ω)
    simp only [Set.mem_ofPred_eq, Set.mem_inter_iff, Set.mem_preimage, Finset.inter_singleton]
    rw [e3 i hi]
    have f1 : i ∈ ps ↔ i ∈ D n ω := by rw [← List.mem_toFinset, e1]
    have f2 : i ∈ gs ↔ i ∉ D n ω ∧ i ∉ swapGkp L₀.pts.length (fun k => D k ω) n := by
      rw [← List.mem_toFinset, e2, swapGkp, Finset.mem_sdiff, Finset.mem_union, Finset.mem_range, not_or]
      exact ⟨fun hx => hx.2, fun hx => ⟨hi, hx⟩⟩
    constructor
    · rintro ⟨-, ps', gs', b1, b2, b3, b4⟩
      rw [a1] at b1
      rw [a2] at b2
      obtain rfl := Option.some.inj b1
      obtain rfl := Option.some.inj b2
      rw [f1] at b3
      rw [f2] at b4
      rw [if_neg b3]
      have : i ∈ swapGkp L₀.pts.length (fun k => D k ω) n := by tauto
      simp [this]
    · rintro ⟨b1, b2⟩
      have b3 : i ∉ D n ω := by
        intro hc
        rw [if_pos hc] at b1
        simp at b1
      have b4 : i ∈ swapGkp L₀.pts.length (fun k => D k ω) n := by
        by_contra hc
        rw [if_neg hc] at b2
        exact absurd b2.symm (by simp)
      have b5 := f1.not.2 b3
      exact ⟨by rw [if_neg b5], ps, gs, a1, a2, b5, f2.not.2 fun hc => hc.2 b4⟩
  have e1 := part_law (hD.meas n) (hD.subset n) (hD.law n) (S := {i}) (C := ∅) hs1 (by simp)
  have e2 := part_law (hD.measGkp n) (fun ω => swapGkp_subset (fun k => D k ω) n) (hD.gkpLaw n) (S := {i}) (C := {i}) hs1 subset_rfl
  rw [e0, indep_real (hD.indepGkp n) trivial trivial, e1, e2, swapGkpProb_closed hp1]
  simp only [Finset.card_empty, Finset.card_singleton, pow_zero, pow_one, one_mul, Nat.sub_zero, Nat.sub_self, mul_one]
  rw [pow_succ]
  ring

/-- C67.  This probability is 0 at the first call, `(1 - p) ^ 2` at the second and tends to `(1 - p) ^ 2 / (2 - p)`. -/
theorem C67_lost_values {p : ℝ} (h0 : 0 < p) (h1 : p ≤ 1) :
    (1 - p) * ((1 - p) + (p - 1) ^ 1) / (2 - p) = 0 ∧ (1 - p) * ((1 - p) + (p - 1) ^ 2) / (2 - p) = (1 - p) ^ 2 ∧
      Filter.Tendsto (fun n : ℕ => (1 - p) * ((1 - p) + (p - 1) ^ (n + 1)) / (2 - p)) Filter.atTop (nhds ((1 - p) ^ 2 / (2 - p))) := by
  have h2 : 2 - p ≠ 0 := by linarith
  refine ⟨by ring, by field_simp; ring, ?_⟩
  have ht : Filter.Tendsto (fun n : ℕ => (p - 1) ^ (n + 1)) Filter.atTop (nhds 0) :=
    (tendsto_pow_atTop_nhds_zero_of_abs_lt_one (by rw [abs_lt]; constructor <;> linarith)).comp (Filter.tendsto_add_atTop_nat 1)
  have := ((ht.const_add (1 - p)).const_mul (1 - p)).div_const (2 - p)
  refine this.congr' (Filter.Eventually.of_forall fun n => rfl) |>.trans ?_
  rw [add_zero, ← sq]

theorem calls_exist (draw : ℕ → List ℕ) {L₀ : Layer P} {p : ℝ} (hnd : L₀.pts.Nodup) (hst : L₀.states = [("p", [])])
    (hp : L₀.pSwap = some p) (hd : ∀ k, ∀ i ∈ draw k, i < L₀.pts.length) (n : ℕ) : ∃ L, Calls draw L₀ n L := by
  induction n with
  | zero => exact ⟨_, .start⟩
  | succ n ih =>
    obtain ⟨L, h⟩ := ih
    obtain ⟨ps, gs, hi, -⟩ := h.inv hnd hst hp hd
    obtain ⟨L', h', -⟩ := hi.next hnd (draw n) (by rw [hi.pts]; exact hd n)
    exact ⟨L', .populate h h'⟩

-- swap-outs with probability 1/3 on seven modes: the law of the first mode at the fifth call
example : ∃ (Ω : Type) (_ : MeasurableSpace Ω) (μ : Measure Ω) (L₀ : Layer ℕ) (L : Ω → Layer ℕ)
    (hi : 0 < L₀.pts.length), IsProbabilityMeasure μ ∧ L₀.pSwap = some (1 / 3) ∧ (∀ ω, ∃ draw, Calls draw L₀ 5 (L ω)) ∧
    μ.real {ω | (L ω).attrs.state L₀.pts[0] = some "GKP" ∧ ∃ ps gs, (L ω).pInds = some ps ∧ (L ω).gkpInds = some gs ∧ 0 ∉ ps ∧ 0 ∉ gs} =
      (2 / 3) * (2 / 3 + (-2 / 3) ^ 5) / (5 / 3) := by
  set L₀ : Layer ℕ := ⟨List.range 7, 0, 1 / 10, some (1 / 3), .initial, [], [("p", [])],
    ⟨fun _ => none, fun _ => none, fun _ => none, fun _ => none⟩⟩ with hL₀
  have hlen : L₀.pts.length = 7 := by rw [hL₀]; exact List.length_range
  have hnd : L₀.pts.Nodup := List.nodup_range
  obtain ⟨Ω, m, μ, hμ, num, choice, hr⟩ := swapRng_exists ℕ L₀.pts.length (p := 1 / 3) (by norm_num) (by norm_num)
  have hd : ∀ ω k, ∀ i ∈ squeezedDraw (num k ω) (choice k ω), i < L₀.pts.length :=
    fun ω k i hi => (hr.arrangement k ω _ (hr.range k ω)).2.2 i hi
  choose L hL using fun ω => calls_exist (fun k => squeezedDraw (num k ω) (choice k ω)) hnd (L₀ := L₀) rfl rfl (hd ω) 5
  have hi : 0 < L₀.pts.length := by rw [hlen]; norm_num
  refine ⟨Ω, m, μ, L₀, L, hi, hμ, rfl, fun ω => ⟨_, hL ω⟩, ?_⟩
  rw [C67_lost hnd rfl rfl (by norm_num) hr hL hi]
  norm_num

end Flamingpy.Noise
