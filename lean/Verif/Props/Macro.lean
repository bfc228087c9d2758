import Verif.Proofs.MacroBits

/-!
# C48, C55, C56: macronode noise

`CVMacroLayer` on any well-formed macronode graph (`MacroOk`, `Verif.Spec.Macro`), and on the macronized graph
of a surface code (`Verif.Props.MacroCode`).
-/

namespace Flamingpy.Noise

open Flamingpy

variable {P : Type} [DecidableEq P]

/-- Index `i` is a micronode labelled GKP. -/
def GkpAt (L : Layer P) (i : ℕ) : Prop := ∃ p, L.pts[i]? = some p ∧ L.attrs.state p = some "GKP"

/-! ## C48 -/

/-- `_permute_star_inds` succeeds exactly when there is a positive multiple of four micronodes, all labelled. -/
theorem C48_defined (L : Layer P) :
    (∃ perm, permuteStarInds L = some perm) ↔
      L.pts.length % 4 = 0 ∧ L.pts ≠ [] ∧ ∀ p ∈ L.pts, ∃ s, L.attrs.state p = some s := by
  constructor
  · rintro ⟨perm, h⟩
    obtain ⟨n, h0, h1, h2⟩ := permuteStarInds_some h
    refine ⟨by omega, fun hn => by rw [hn] at h1; simp at h1; omega, fun p hp => ?_⟩
    obtain ⟨i, hi⟩ := List.mem_iff_getElem?.1 hp
    have hlt := (List.getElem?_eq_some_iff.1 hi).1
    obtain ⟨b, hb⟩ := h2 i (by omega)
    unfold isGkp at hb
    rw [hi] at hb
    simp only [Option.bind_eq_bind, Option.bind_some, Option.bind_eq_some_iff] at hb
    obtain ⟨s, hs, _⟩ := hb
    exact ⟨s, hs⟩
  · rintro ⟨h1, h2, h3⟩
    have hpos : 0 < L.pts.length := List.length_pos_iff.2 h2
    refine ⟨_, permuteStarInds_ok L (n := L.pts.length / 4) (by omega) (by omega)
      (fun i => (isGkp L i).getD false) fun i hi => ?_⟩
    have hlt : i < L.pts.length := by omega
    obtain ⟨s, hs⟩ := h3 _ (List.getElem_mem hlt)
    unfold isGkp
    rw [List.getElem?_eq_getElem hlt]
    simp [hs]

/-- The permuted indices are the indices in another order; the four indices of each macronode stay at its four
places; those of the GKP states come first, in ascending order, then the others, in ascending order. -/
theorem C48_permutation (L : Layer P) (perm : List ℕ) (h : permuteStarInds L = some perm) :
    perm.Perm (List.range L.pts.length) ∧
    ∀ k, 4 * k < L.pts.length → ∃ a b, (perm.drop (4 * k)).take 4 = a ++ b ∧
      a.Pairwise (· < ·) ∧ b.Pairwise (· < ·) ∧
      (∀ i, i ∈ a ↔ 4 * k ≤ i ∧ i < 4 * k + 4 ∧ GkpAt L i) ∧
      ∀ i, i ∈ b ↔ 4 * k ≤ i ∧ i < 4 * k + 4 ∧ ¬ GkpAt L i := by
  obtain ⟨n, h0, h1, h2⟩ := permuteStarInds_some h
  set g : ℕ → Bool := fun i => (isGkp L i).getD false with hg
  have hgk : ∀ i < 4 * n, isGkp L i = some (g i) := by
    intro i hi
    obtain ⟨b, hb⟩ := h2 i hi
    rw [hg]; simp only; rw [hb]; rfl
  rw [permuteStarInds_ok L h0 h1 g hgk] at h
  obtain rfl := Option.some.inj h
  have hat : ∀ i < 4 * n, (g i = true ↔ GkpAt L i) := by
    intro i hi
    have h3 := hgk i hi
    unfold isGkp at h3
    have hlt : i < L.pts.length := by omega
    rw [List.getElem?_eq_getElem hlt] at h3
    simp only [Option.bind_eq_bind, Option.bind_some, Option.bind_eq_some_iff] at h3
    obtain ⟨s, hs, h4⟩ := h3
    have h4 := Option.some.inj h4
    unfold GkpAt
    rw [List.getElem?_eq_getElem hlt, ← h4]
    constructor
    · intro he
      exact ⟨_, rfl, by rw [hs]; simpa using he⟩
    · rintro ⟨p, hp, hp'⟩
      obtain rfl := Option.some.inj hp
      rw [hs] at hp'
      simpa using hp'
  refine ⟨by rw [h1]; exact permOf_perm g n, fun k hk => ?_⟩
  have hkn : k < n := by omega
  have hpw : (row k).Pairwise (· < ·) := by unfold row; simp
  refine ⟨(row k).filter g, (row k).filter fun i => !g i, ?_, hpw.filter _, hpw.filter _, ?_, ?_⟩
  · rw [permOf_group g n k hkn]; rfl
  · intro i
    rw [List.mem_filter, mem_row]
    constructor
    · rintro ⟨h3, h4⟩
      exact ⟨by omega, by omega, (hat i (by omega)).1 h4⟩
    · rintro ⟨h3, h4, h5⟩
      exact ⟨by omega, (hat i (by omega)).2 h5⟩
  · intro i
    rw [List.mem_filter, mem_row]
    constructor
    · rintro ⟨h3, h4⟩
      refine ⟨by omega, by omega, fun h5 => ?_⟩
      rw [(hat i (by omega)).2 h5] at h4
      simp at h4
    · rintro ⟨h3, h4, h5⟩
      refine ⟨by omega, ?_⟩
      have : ¬ g i = true := fun hc => h5 ((hat i (by omega)).1 hc)
      simpa using this

/-- Reachable macronode layers, with the number of `populate_states` calls: any sequence of successful calls of
`apply_noise`, `populate_states` and `measure_hom`, and any changes of the bits of the reduced graph in between
(`correct` flips some). -/
inductive MacroHist (M₀ : Macro P) : ℕ → Macro P → Prop
  | start : MacroHist M₀ 0 M₀
  | apply {n M M'} (r : MacroRnd) : MacroHist M₀ n M → (∀ i ∈ r.draw, i < M.layer.pts.length) →
      r.empty.length = 2 * M.layer.pts.length → macroApply M r = some M' → MacroHist M₀ (n + 1) M'
  | populate {n M L} (draw : List ℕ) : MacroHist M₀ n M → (∀ i ∈ draw, i < M.layer.pts.length) →
      populate M.layer draw = some L → MacroHist M₀ (n + 1) { M with layer := L }
  | measure {n M L} (quad inds isArray m c propagate r) : MacroHist M₀ n M →
      measureHom M.layer quad inds isArray m c propagate r = some L → MacroHist M₀ n { M with layer := L }
  | bits {n M} (b : P → Option ℤ) : MacroHist M₀ n M → MacroHist M₀ n { M with redBit := b }

theorem MacroHist.inv {M₀ M : Macro P} {cs : List P} {n : ℕ} (hok : MacroOk M₀ cs) (hf : Fresh M₀.layer)
    (h : MacroHist M₀ n M) : Hist M₀.layer n M.layer ∧ Frame M₀ M := by
  induction h with
  | start => exact ⟨.start, rfl, rfl, rfl, rfl⟩
  | apply r _ hd he ha ih =>
    obtain ⟨hh, hfr⟩ := ih
    obtain ⟨ps, gs, hi⟩ := hh.inv hf
    obtain ⟨M', _, _, h1, _, h3, h4, _⟩ := run_spec hok hi hh hfr r hd he
    rw [ha] at h1
    obtain rfl := Option.some.inj h1
    exact ⟨h3, h4⟩
  | populate draw _ hd hp ih =>
    exact ⟨.populate draw ih.1 hd hp, ih.2.1, ih.2.2, ih.2.3, ih.2.4⟩
  | measure _ _ _ _ _ _ _ _ hm ih =>
    exact ⟨.measure _ _ _ _ _ _ _ ih.1 hm, ih.2.1, ih.2.2, ih.2.3, ih.2.4⟩
  | bits b _ ih => exact ⟨ih.1, ih.2.1, ih.2.2, ih.2.3, ih.2.4⟩

/-- After `apply_noise`, the reduced node of a macronode is labelled GKP if the macronode contains a GKP state and
p otherwise; whatever was called before. -/
theorem C48_reduced_label {M₀ M M' : Macro P} {cs : List P} {n : ℕ} (hok : MacroOk M₀ cs) (hf : Fresh M₀.layer)
    (h : MacroHist M₀ n M) (r : MacroRnd) (hd : ∀ i ∈ r.draw, i < M.layer.pts.length)
    (he : r.empty.length = 2 * M.layer.pts.length) (ha : macroApply M r = some M') :
    ∀ c ∈ cs, (M'.hasGkp c → M'.redState c = some "GKP") ∧ (¬ M'.hasGkp c → M'.redState c = some "p") := by
  obtain ⟨hh, hfr⟩ := h.inv hok hf
  obtain ⟨ps₀, gs₀, hi⟩ := hh.inv hf
  obtain ⟨M'', ps, gs, h1, hi', _, hf', _, hred, σ, q, starP, hm, _⟩ := run_spec hok hi hh hfr r hd he
  rw [ha] at h1
  obtain rfl := Option.some.inj h1
  intro c hc
  obtain ⟨k, hkl, rfl⟩ := List.getElem_of_mem hc
  have hk : cs[k]? = some cs[k] := List.getElem?_eq_getElem hkl
  have hok' := hok.transport hi' hf'
  have hiff : M'.hasGkp cs[k] ↔ gkpSet ps (starOf (gkpSet ps) k) = true := by
    rw [starOf_gkp]
    unfold Macro.hasGkp Macro.micros
    constructor
    · rintro ⟨x, hx, hs⟩
      rw [List.mem_filter, decide_eq_true_eq] at hx
      obtain ⟨i, hi⟩ := List.mem_iff_getElem?.1 hx.1
      have hil : i < 4 * cs.length := by
        have := (List.getElem?_eq_some_iff.1 hi).1
        rwa [hok'.len] at this
      have c1 := hok'.centre i x hi
      rw [hx.2, List.getElem?_eq_getElem (by omega : i / 4 < cs.length)] at c1
      refine ⟨i, hok.csNodup.getElem_inj_iff.1 (Option.some.inj c1), ?_⟩
      rw [hm.label i hil x hi] at hs
      by_contra hne
      simp [hne] at hs
    · rintro ⟨i, hik, hg⟩
      have hil : i < 4 * cs.length := by omega
      obtain ⟨p, hp, hpm, hpc⟩ := hok'.get hil
      refine ⟨p, ?_, by rw [hm.label i hil p hp, if_pos hg]⟩
      rw [List.mem_filter, decide_eq_true_eq]
      rw [hik, hk] at hpc
      exact ⟨hpm, (Option.some.inj hpc).symm⟩
  rw [hred k _ hk, hiff]
  constructor
  · intro h5; rw [if_pos h5]
  · intro h5; rw [if_neg h5]

/-- The permuted indices stored by `apply_noise` are those of the labels on the graph. -/
theorem C48_stored {M₀ M M' : Macro P} {cs : List P} {n : ℕ} (hok : MacroOk M₀ cs) (hf : Fresh M₀.layer)
    (h : MacroHist M₀ n M) (r : MacroRnd) (hd : ∀ i ∈ r.draw, i < M.layer.pts.length)
    (he : r.empty.length = 2 * M.layer.pts.length) (ha : macroApply M r = some M') :
    permuteStarInds M'.layer = some M'.perm := by
  obtain ⟨hh, hfr⟩ := h.inv hok hf
  obtain ⟨ps₀, gs₀, hi⟩ := hh.inv hf
  obtain ⟨M'', ps, gs, h1, hi', _, hf', hperm, _, σ, q, starP, hm, _⟩ := run_spec hok hi hh hfr r hd he
  rw [ha] at h1
  obtain rfl := Option.some.inj h1
  have hok' := hok.transport hi' hf'
  rw [hperm]
  refine permuteStarInds_ok _ (List.length_pos_iff.2 hok.nonempty) hok'.len _ fun i hil => ?_
  obtain ⟨p, hp, _⟩ := hok'.get hil
  unfold isGkp
  rw [hp, Option.bind_eq_bind, Option.bind_some, hm.label i hil p hp]
  cases gkpSet ps i <;> simp

/-! ## C56 -/

/-- `apply_noise` never fails, whatever was called before; every reduced node gets a bit, 0 or 1, and a phase
error probability between 0 and 1/2, which is 0 if `delta` is 0. -/
theorem C56_apply {M₀ M : Macro P} {cs : List P} {n : ℕ} (hok : MacroOk M₀ cs) (hf : Fresh M₀.layer)
    (h : MacroHist M₀ n M) (r : MacroRnd) (hd : ∀ i ∈ r.draw, i < M.layer.pts.length)
    (he : r.empty.length = 2 * M.layer.pts.length) :
    ∃ M', macroApply M r = some M' ∧ ∀ c ∈ cs,
      (M'.redBit c = some 0 ∨ M'.redBit c = some 1) ∧
      ∃ x, M'.redProb c = some x ∧ 0 ≤ x ∧ x ≤ 1 / 2 ∧ (M₀.layer.delta = 0 → x = 0) := by
  obtain ⟨hh, hfr⟩ := h.inv hok hf
  obtain ⟨ps₀, gs₀, hi⟩ := hh.inv hf
  obtain ⟨M', ps, gs, h1, hi', _, hf', hperm, _, σ, q, starP, hm, _, hbits, _⟩ := run_spec hok hi hh hfr r hd he
  refine ⟨M', h1, fun c hc => ?_⟩
  obtain ⟨k, hkl, rfl⟩ := List.getElem_of_mem hc
  obtain ⟨a, a1, a2, a3⟩ := hbits k _ (List.getElem?_eq_getElem hkl)
  constructor
  · rw [a1]
    unfold finalBit
    rcases Int.emod_two_eq_zero_or_one (Gkp.gkpBinner a.outcome + (a.gkpZ.map Gkp.gkpBinner).sum) with h2 | h2
    · left; rw [h2]
    · right; rw [h2]
  · refine ⟨_, a2, le_max_right _ _, ?_, ?_⟩
    · unfold finalProb
      refine max_le ((min_le_right _ _).trans (by norm_num)) (by norm_num)
    · intro h0
      have hd0 : M'.layer.delta = 0 := hi'.delta.trans h0
      unfold finalProb
      rw [hd0]
      simp only [gt_iff_lt, lt_irrefl, if_false]
      rw [a3.pErr (by rw [hd0]; simp)]
      norm_num

/-! ## C55 -/

/-- The four micronodes of a macronode have the body indices 1, 2, 3, 4, one each; the star (index 1) has a
recorded momentum outcome, the others recorded position outcomes. -/
theorem Measured.bodies {M : Macro P} {cs : List P} {σ : ℕ → ℕ} {G : ℕ → Bool} {q : ℕ → ℕ → ℝ} {starP : ℕ → ℝ}
    (h : Measured M cs σ G q starP) {k : ℕ} {c : P} (hk : cs[k]? = some c) {t : ℕ} (ht : t < 4) :
    ∃ x ∈ M.micros c, M.layer.pts[σ (4 * k + t)]? = some x ∧ M.bodyIndex x = some (t + 1) ∧
      ∀ y ∈ M.micros c, M.bodyIndex y = some (t + 1) → y = x := by
  have hkl : k < cs.length := (List.getElem?_eq_some_iff.1 hk).1
  have hlt : ∀ t < 4, σ (4 * k + t) < 4 * cs.length := by
    intro t ht
    have := List.mem_of_getElem? (h.get (4 * k + t) (by omega))
    exact List.mem_range.1 (h.perm.mem_iff.1 this)
  obtain ⟨x, hx, hxm, hxc⟩ := h.ok.get (hlt t ht)
  rw [h.group _ (by omega), show (4 * k + t) / 4 = k by omega, hk] at hxc
  have hb := h.body (4 * k + t) (by omega) x hx
  rw [show (4 * k + t) % 4 = t by omega] at hb
  refine ⟨x, ?_, hx, hb, ?_⟩
  · unfold Macro.micros
    rw [List.mem_filter, decide_eq_true_eq]
    exact ⟨hxm, (Option.some.inj hxc).symm⟩
  · intro y hy hyb
    unfold Macro.micros at hy
    rw [List.mem_filter, decide_eq_true_eq] at hy
    obtain ⟨i, hi⟩ := List.mem_iff_getElem?.1 hy.1
    have hil : i < 4 * cs.length := by
      have := (List.getElem?_eq_some_iff.1 hi).1
      rwa [h.ok.len] at this
    have hc := h.ok.centre i y hi
    rw [hy.2, ← hk, List.getElem?_eq_getElem (by omega : i / 4 < cs.length), List.getElem?_eq_getElem hkl] at hc
    have hik : i / 4 = k := h.ok.csNodup.getElem_inj_iff.1 (Option.some.inj hc)
    obtain ⟨s, hs, hσ, hsl⟩ := h.surj hil
    have hb' := h.body _ hsl y (by rw [hσ]; exact hi)
    rw [hyb, show (4 * (i / 4) + s) % 4 = s by omega] at hb'
    have hst : s = t := by have := Option.some.inj hb'; omega
    subst hst
    rw [hik] at hσ
    rw [hσ, hi] at hx
    exact (Option.some.inj hx)

theorem Measured.posOutcome {M : Macro P} {cs : List P} {σ : ℕ → ℕ} {G : ℕ → Bool} {q : ℕ → ℕ → ℝ} {starP : ℕ → ℝ}
    (h : Measured M cs σ G q starP) {k : ℕ} {c : P} (hk : cs[k]? = some c) {t : ℕ} (h1 : 1 ≤ t) (ht : t < 4) :
    M.posOutcome c (t + 1) = q k t := by
  have hkl : k < cs.length := (List.getElem?_eq_some_iff.1 hk).1
  obtain ⟨x, hx, hxi, hxb, huniq⟩ := h.bodies hk ht
  unfold Macro.posOutcome
  have hf : ((M.micros c).find? fun x => decide (M.bodyIndex x = some (t + 1))) = some x := by
    cases hfd : (M.micros c).find? fun x => decide (M.bodyIndex x = some (t + 1)) with
    | none =>
      have := List.find?_eq_none.1 hfd x hx
      simp [hxb] at this
    | some y =>
      have h2 := List.find?_some hfd
      rw [decide_eq_true_eq] at h2
      rw [huniq y (List.mem_of_find?_eq_some hfd) h2]
  rw [hf, Option.bind_some, h.homQ k hkl t h1 ht x hxi]
  rfl

theorem Measured.contribution {M : Macro P} {cs : List P} {σ : ℕ → ℕ} {G : ℕ → Bool} {q : ℕ → ℕ → ℝ} {starP : ℕ → ℝ}
    (h : Measured M cs σ G q starP) {i : ℕ} {y : P} (hy : M.layer.pts[i]? = some y) :
    M.contribution y = zVal M q i := by
  have hil : i < 4 * cs.length := by
    have := (List.getElem?_eq_some_iff.1 hy).1
    rwa [h.ok.len] at this
  have hc := h.ok.centre i y hy
  obtain ⟨t, ht, hσ, hlt⟩ := h.surj hil
  have hb := h.body _ hlt y (by rw [hσ]; exact hy)
  rw [show (4 * (i / 4) + t) % 4 = t by omega] at hb
  have hidx : M.perm.idxOf i % 4 = t := by
    have e := h.idx hlt
    rw [hσ] at e
    rw [e]; omega
  have p1 := h.posOutcome hc (t := 1) (by omega) (by omega)
  have p2 := h.posOutcome hc (t := 2) (by omega) (by omega)
  have p3 := h.posOutcome hc (t := 3) (by omega) (by omega)
  simp only [Nat.reduceAdd] at p1 p2 p3
  unfold Macro.contribution zVal
  simp only [hidx, hb, p1, p2, p3, Option.some.injEq]
  interval_cases t <;> simp [zOf]

/-- What `apply_noise` writes on a reduced node, from what it recorded on the micronodes: with `p` the momentum
outcome of the star, the outcomes of momentum-state neighbours are subtracted from `2 p`; the bit is the parity of
the binned result and of the binned outcomes of the GKP neighbours; the probability adds up the conditional
phase error probabilities of the GKP neighbours (variance `2 delta`) and of the result (variance
`2 (2 + number of momentum-state neighbours) delta`), cut off at 1/2. -/
theorem C56_value {M₀ M : Macro P} {cs : List P} {n : ℕ} (hok : MacroOk M₀ cs) (hf : Fresh M₀.layer)
    (h : MacroHist M₀ n M) (r : MacroRnd) (hd : ∀ i ∈ r.draw, i < M.layer.pts.length)
    (he : r.empty.length = 2 * M.layer.pts.length) :
    ∃ M', macroApply M r = some M' ∧ ∀ c ∈ cs,
      (∀ b, 1 ≤ b → b ≤ 4 → ∃ x ∈ M'.micros c, M'.bodyIndex x = some b ∧
        (∀ y ∈ M'.micros c, M'.bodyIndex y = some b → y = x) ∧ (b ≠ 1 → (M'.layer.attrs.homQ x).isSome)) ∧
      ∃ s ∈ M'.micros c, M'.bodyIndex s = some 1 ∧ ∃ p, M'.layer.attrs.homP s = some p ∧
        let outcome := 2 * p - ((M'.pLinks c).map M'.contribution).sum
        M'.redBit c = some ((Gkp.gkpBinner outcome +
          ((M'.gkpLinks c).map fun y => Gkp.gkpBinner (M'.contribution y)).sum) % 2) ∧
        M'.redProb c = some (if 0 < M₀.layer.delta then
          max 0 (min (1 / 2) (((M'.gkpLinks c).map fun y =>
              Gkp.zErrCond (2 * M₀.layer.delta) (M'.contribution y) (useHomVal := true)).sum +
            Gkp.zErrCond (2 * (2 + (M'.pLinks c).length) * M₀.layer.delta) outcome (useHomVal := true))) else 0) := by
  obtain ⟨hh, hfr⟩ := h.inv hok hf
  obtain ⟨ps₀, gs₀, hi⟩ := hh.inv hf
  obtain ⟨M', ps, gs, h1, hi', _, hf', hperm, _, σ, q, starP, hm, _, hbits, _⟩ := run_spec hok hi hh hfr r hd he
  refine ⟨M', h1, fun c hc => ?_⟩
  obtain ⟨k, hkl, rfl⟩ := List.getElem_of_mem hc
  have hk : cs[k]? = some cs[k] := List.getElem?_eq_getElem hkl
  constructor
  · intro b hb1 hb4
    obtain ⟨x, x1, x2, x3, x4⟩ := hm.bodies hk (t := b - 1) (by omega)
    rw [show b - 1 + 1 = b by omega] at x3 x4
    refine ⟨x, x1, x3, x4, fun hb => ?_⟩
    rw [hm.homQ k hkl (b - 1) (by omega) (by omega) x x2]
    rfl
  · obtain ⟨s, s1, s2, s3, _⟩ := hm.bodies hk (t := 0) (by omega)
    rw [add_zero] at s2
    refine ⟨s, s1, s3, starP k, hm.homP k hkl s s2, ?_⟩
    obtain ⟨a, a1, a2, a3⟩ := hbits k _ hk
    -- the neighbours, by indices
    set I := ([0, 1, 2, 3].map fun t => σ (4 * k + t)).filterMap (nbI M') with hI
    have hIP : I.Perm ((row k).filterMap (nbI M')) := by
      refine List.Perm.filterMap _ (arranged_perm (gkpSet ps) cs.length k hkl σ ?_)
      rw [← hperm]
      exact hm.get
    set g : ℕ → P := fun i => (M'.layer.pts[i]?).getD s with hg
    have hrow : ∀ i ∈ row k, i < M'.layer.pts.length := by
      intro i hi
      rw [mem_row] at hi
      rw [hm.ok.len]; omega
    have hlinks : (I.map g).Perm (M'.links cs[k]) := by
      have e1 := (hm.ok.micros_perm s hk).flatMap_right M'.nbrs
      refine ((hIP.map g).trans ?_).trans e1.symm
      apply List.Perm.of_eq
      have : ∀ l : List ℕ, (∀ i ∈ l, i < M'.layer.pts.length) →
          (l.filterMap (nbI M')).map g = (l.map fun i => (M'.layer.pts[i]?).getD s).flatMap M'.nbrs := by
        intro l hl
        induction l with
        | nil => rfl
        | cons i l ih =>
          have hil := hl i (by simp)
          have ih := ih fun j hj => hl j (by simp [hj])
          have hgi := List.getElem?_eq_getElem hil
          rcases hm.ok.nbI_cases hgi with ⟨b1, b2⟩ | ⟨j, w, b1, b2, b3⟩
          · simp [b1, b2, hgi, ih]
          · have hgj : g j = w := by rw [hg]; simp only; rw [b2]; rfl
            rw [List.filterMap_cons_some b1, List.map_cons, List.map_cons, List.flatMap_cons, ih, hgj, hgi,
              Option.getD_some, b3]
            rfl
      exact this _ hrow
    have hget : ∀ i ∈ I, M'.layer.pts[i]? = some (g i) := by
      intro i hi
      rw [hIP.mem_iff, List.mem_filterMap] at hi
      obtain ⟨j, hj, hji⟩ := hi
      rcases hm.ok.nbI_cases (List.getElem?_eq_getElem (hrow j hj)) with ⟨b1, b2⟩ | ⟨j', w, b1, b2, b3⟩
      · rw [b1] at hji; cases hji
      · rw [b1] at hji
        obtain rfl := Option.some.inj hji
        rw [hg]; simp only; rw [b2]; rfl
    have hlab : ∀ i ∈ I, M'.layer.attrs.state (g i) = some (if gkpSet ps i then "GKP" else "p") := by
      intro i hi
      have := hget i hi
      refine hm.label i ?_ _ this
      have := (List.getElem?_eq_some_iff.1 this).1
      rwa [hm.ok.len] at this
    have eP : ∀ {α : Type} (f : P → α) (f' : ℕ → α), (∀ i ∈ I, f (g i) = f' i) →
        ((M'.pLinks cs[k]).map f).Perm ((I.filter fun i => !gkpSet ps i).map f') := by
      intro α f f' hff
      unfold Macro.pLinks
      refine ((hlinks.symm.filter _).map f).trans ?_
      rw [List.filter_map, List.map_map]
      apply List.Perm.of_eq
      have : (I.filter ((fun y => decide (M'.layer.attrs.state y = some "p")) ∘ g)) = I.filter fun i => !gkpSet ps i := by
        apply List.filter_congr
        intro i hi
        rw [Function.comp, hlab i hi]
        cases gkpSet ps i <;> simp
      rw [this]
      apply List.map_congr_left
      intro i hi
      exact hff i (List.mem_filter.1 hi).1
    have eG : ∀ {α : Type} (f : P → α) (f' : ℕ → α), (∀ i ∈ I, f (g i) = f' i) →
        ((M'.gkpLinks cs[k]).map f).Perm ((I.filter (gkpSet ps)).map f') := by
      intro α f f' hff
      unfold Macro.gkpLinks
      refine ((hlinks.symm.filter _).map f).trans ?_
      rw [List.filter_map, List.map_map]
      apply List.Perm.of_eq
      have : (I.filter ((fun y => decide (M'.layer.attrs.state y = some "GKP")) ∘ g)) = I.filter (gkpSet ps) := by
        apply List.filter_congr
        intro i hi
        rw [Function.comp, hlab i hi]
        cases gkpSet ps i <;> simp
      rw [this]
      apply List.map_congr_left
      intro i hi
      exact hff i (List.mem_filter.1 hi).1
    have hZ : ∀ i ∈ I, M'.contribution (g i) = zVal M' q i := fun i hi => hm.contribution (hget i hi)
    have hdel : M'.layer.delta = M₀.layer.delta := hi'.delta
    have hout : a.outcome = 2 * starP k - ((M'.pLinks cs[k]).map M'.contribution).sum := by
      rw [a3.outcome, (eP _ _ hZ).sum_eq]
    have hnum : a.numP = (M'.pLinks cs[k]).length := by
      have := (eP (fun _ => ()) (fun _ => ()) fun _ _ => rfl).length_eq
      rw [List.length_map, List.length_map] at this
      exact a3.numP.trans this.symm
    intro outcome
    constructor
    · rw [a1]
      unfold finalBit
      rw [hout, a3.gkpZ, List.map_map, (eG _ (Gkp.gkpBinner ∘ zVal M' q) fun i hi => congrArg _ (hZ i hi)).sum_eq]
    · rw [a2]
      unfold finalProb
      rw [hdel]
      split_ifs with h0
      · rw [a3.pErr' (by rw [hdel]; exact h0), hout, hnum, hdel,
          (eG _ (fun i => Gkp.zErrCond (2 * M₀.layer.delta) (zVal M' q i) (useHomVal := true))
            fun i hi => by rw [hZ i hi]).sum_eq, max_comm, min_comm]
        norm_num
        rfl
      · rw [a3.pErr (by rw [hdel]; exact h0)]
        norm_num

/-- Small noise: if every displacement of a homodyne outcome is at most a twentieth of √π, then there are integers,
one per macronode, such that the bit of every reduced node whose neighbouring macronodes all contain a GKP state
is the parity of the sum over its neighbouring macronodes.  Edges may have weight -1 if there are no swap-outs (`straight`). -/
theorem C55_parity {M₀ M : Macro P} {cs : List P} {n : ℕ} (hok : MacroOk M₀ cs) (hs : M₀.straight) (hf : Fresh M₀.layer)
    (h : MacroHist M₀ n M) (r : MacroRnd) (hd : ∀ i ∈ r.draw, i < M.layer.pts.length)
    (he : r.empty.length = 2 * M.layer.pts.length)
    {eps : ℝ} (heps : 20 * eps < √Real.pi) (hp : ∀ z, |√(M₀.layer.delta / 2) * r.p.z z| ≤ eps)
    (hq : ∀ z, |√(M₀.layer.delta / 2) * r.q.z z| ≤ eps) :
    ∃ M', macroApply M r = some M' ∧ ∃ b : P → ℤ, ∀ c ∈ cs, (∀ c' ∈ M₀.around c, M'.hasGkp c') →
      M'.redBit c = some (((M₀.around c).map b).sum % 2) := by
  obtain ⟨hh, hfr⟩ := h.inv hok hf
  obtain ⟨ps₀, gs₀, hi⟩ := hh.inv hf
  obtain ⟨M', b, h1, h2⟩ := run_bits hok hi hh hfr r hd he (straight_wI hok hs hf hh hi hd) heps hp hq
  exact ⟨M', h1, b, h2⟩

/-! ## The hypotheses can be met

The hypotheses of `C48_reduced_label`, `C48_stored`, `C55_parity` and `C56_*` are met by the examples in `Props/MacroCode.lean`. -/

-- two macronodes: in the first one two GKP states come before two squeezed ones, in the second there is no GKP state
example : permuteStarInds (P := ℕ) ⟨List.range 8, 0, 1, none, .initial, [], [],
    ⟨fun p => some (if p = 1 ∨ p = 3 then "GKP" else "p"), fun _ => none, fun _ => none, fun _ => none⟩⟩ = some [1, 3, 0, 2, 4, 5, 6, 7] := by
  decide +kernel

end Flamingpy.Noise
