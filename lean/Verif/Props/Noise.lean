import Verif.Proofs.NoiseParity
import Mathlib.Tactic.NormNum

/-!
# C44-C47, C53: noise models
-/

namespace Flamingpy.Noise

open Flamingpy Flamingpy.SurfaceCode

variable {P : Type} [DecidableEq P]

/-! ## C44 -/

/-- A probability outside [0, 1] is rejected, any other is kept. -/
theorem C44_construction (p : ℝ) :
    (iidInit p = none ↔ p < 0 ∨ 1 < p) ∧ (0 ≤ p → p ≤ 1 → iidInit p = some p) := by
  unfold iidInit
  constructor
  · split_ifs with h
    · simp only [true_iff]; norm_num at h; exact h
    · norm_num at h ⊢; exact h
  · intro h0 h1
    rw [if_neg]
    norm_num
    exact ⟨h0, h1⟩

/-- Every node gets the bit of its own random number; nothing else changes. -/
theorem C44_apply (p : ℝ) (u : ℕ → ℝ) (nodes : List P) (hn : nodes.Nodup) (a : Attrs P) :
    (∀ i (hi : i < nodes.length), (iidApply p u nodes a).bit nodes[i] = some (if u i < p then 1 else 0)) ∧
    (∀ x, x ∉ nodes → (iidApply p u nodes a).bit x = a.bit x) ∧
    (iidApply p u nodes a).state = a.state ∧ (iidApply p u nodes a).homQ = a.homQ ∧
    (iidApply p u nodes a).homP = a.homP := by
  obtain ⟨h1, h2, h3, h4, h5⟩ := iidApply_spec p u nodes hn a 0
  refine ⟨fun i hi => ?_, h4, h1, h2, h3⟩
  have := h5 i hi
  rwa [Nat.zero_add] at this

/-- With uniform numbers in [0, 1): probability zero gives zeros everywhere and one gives ones. -/
theorem C44_extremes (u : ℕ → ℝ) (hu : ∀ i, 0 ≤ u i ∧ u i < 1) (nodes : List P) (hn : nodes.Nodup) (a : Attrs P)
    {x : P} (hx : x ∈ nodes) :
    (iidApply 0 u nodes a).bit x = some 0 ∧ (iidApply 1 u nodes a).bit x = some 1 := by
  obtain ⟨i, hi, rfl⟩ := List.getElem_of_mem hx
  constructor
  · rw [(C44_apply 0 u nodes hn a).1 i hi, if_neg (not_lt.2 (hu i).1)]
  · rw [(C44_apply 1 u nodes hn a).1 i hi, if_pos (hu i).2]

/-! ## C45, C46 -/

/-- A newly made layer without own GKP indices: only p-squeezed modes are listed, all of them existing. -/
def Fresh (L : Layer P) : Prop :=
  L.pts.Nodup ∧ ∃ ps, L.states = [("p", ps)] ∧ ∀ i ∈ ps, i < L.pts.length

/-- Reachable layers, with the number of `populate_states` calls: any sequence of calls of
`populate_states` (with any random choice of existing modes), `measure_hom` and `inner_decoder` that succeed, and
any changes of the bits in between (`correct` flips some). -/
inductive Hist (L₀ : Layer P) : ℕ → Layer P → Prop
  | start : Hist L₀ 0 L₀
  | populate {n L L'} (draw : List ℕ) : Hist L₀ n L → (∀ i ∈ draw, i < L.pts.length) →
      populate L draw = some L' → Hist L₀ (n + 1) L'
  | measure {n L L'} (quad inds isArray m c propagate r) : Hist L₀ n L →
      measureHom L quad inds isArray m c propagate r = some L' → Hist L₀ n L'
  | decode {n L L'} (coords) : Hist L₀ n L → innerDecoder L coords = some L' → Hist L₀ n L'
  | bits {n L} (b : P → Option ℤ) : Hist L₀ n L → Hist L₀ n { L with attrs := { L.attrs with bit := b } }

/-- One `apply_noise` is one more `populate_states`. -/
theorem Hist.apply {L₀ L L' : Layer P} {n : ℕ} (h : Hist L₀ n L) (inds : List ℕ) (coords : List P) (draw : List ℕ)
    (r : Rnd) (hd : ∀ i ∈ draw, i < L.pts.length) (ha : applyNoise L inds coords draw r = some L') :
    Hist L₀ (n + 1) L' := by
  unfold applyNoise at ha
  simp only [Option.bind_eq_bind, Option.bind_eq_some_iff] at ha
  obtain ⟨L1, h1, L2, h2, h3⟩ := ha
  exact .decode _ (.measure _ _ _ _ _ _ _ (.populate draw h hd h1) h2) h3

/-- What holds of a layer after some calls. -/
structure Inv (L₀ L : Layer P) (n : ℕ) (ps gs : List ℕ) : Prop where
  pts : L.pts = L₀.pts
  pSwap : L.pSwap = L₀.pSwap
  delta : L.delta = L₀.delta
  order : L.order = L₀.order
  perfect : L.perfect = L₀.perfect
  adj : ∀ i j : ℕ, ∀ hi hj hi' hj', L.adj ⟨i, hi'⟩ ⟨j, hj'⟩ = L₀.adj ⟨i, hi⟩ ⟨j, hj⟩
  states : L.states = [("p", ps)] ∧ gs = [] ∧ n = 0 ∨ L.states = [("p", ps), ("GKP", gs)] ∧ 1 ≤ n
  psLt : ∀ i ∈ ps, i < L.pts.length
  gsLt : ∀ i ∈ gs, i < L.pts.length
  disj : ∀ i ∈ ps, i ∉ gs
  first : n = 1 → ∀ i < L.pts.length, i ∈ ps ∨ i ∈ gs
  labels : 1 ≤ n → ∀ i (hi : i < L.pts.length), L.attrs.state L.pts[i] = some (if i ∈ ps then "p" else "GKP")

theorem nextP_lt {L : Layer P} {draw ps : List ℕ} (hd : ∀ i ∈ draw, i < L.pts.length)
    (hp : ∀ i ∈ ps, i < L.pts.length) : ∀ i ∈ nextP L draw ps, i < L.pts.length := by
  intro i hi
  unfold nextP at hi
  split_ifs at hi
  · exact List.mem_range.1 hi
  · exact hd i hi
  · exact hp i hi

theorem Inv.next {L₀ L : Layer P} {n : ℕ} {ps gs : List ℕ} (hnd : L₀.pts.Nodup) (h : Inv L₀ L n ps gs)
    (draw : List ℕ) (hd : ∀ i ∈ draw, i < L.pts.length) :
    ∃ L', populate L draw = some L' ∧
      Inv L₀ L' (n + 1) (nextP L draw ps) (compl L.pts.length (nextP L draw ps ++ gs)) := by
  have hlt := nextP_lt hd h.psLt
  have hs := populate_spec L ps gs draw (by
    rcases h.states with ⟨h1, h2, _⟩ | ⟨h1, _⟩
    · exact Or.inl ⟨h1, h2⟩
    · exact Or.inr h1) hlt
  refine ⟨_, hs, h.pts, h.pSwap, h.delta, h.order, h.perfect, h.adj, Or.inr ⟨rfl, by omega⟩, hlt,
    fun i hi => (mem_compl.1 hi).1, ?_, ?_, ?_⟩
  · intro i hi hc
    exact (mem_compl.1 hc).2 (List.mem_append_left _ hi)
  · intro hn i hi
    have h0 : gs = [] := by
      rcases h.states with ⟨_, h2, _⟩ | ⟨_, h2⟩
      · exact h2
      · omega
    subst h0
    by_cases hp : i ∈ nextP L draw ps
    · exact Or.inl hp
    · exact Or.inr (mem_compl.2 ⟨hi, by simpa using hp⟩)
  · intro _ i hi
    have hnd' : L.pts.Nodup := by rw [h.pts]; exact hnd
    have hi' : i < L.pts.length := hi
    suffices H : (if L.pts[i]'hi' ∈ (compl L.pts.length (nextP L draw ps ++ gs)).filterMap (L.pts[·]?) then some "GKP"
        else if L.pts[i]'hi' ∈ (nextP L draw ps).filterMap (L.pts[·]?) then some "p"
          else L.attrs.state (L.pts[i]'hi')) = some (if i ∈ nextP L draw ps then "p" else "GKP") from H
    by_cases hp : i ∈ nextP L draw ps
    · rw [if_neg, if_pos ((mem_filterMap_pts hnd' hi').2 hp), if_pos hp]
      rw [mem_filterMap_pts hnd' hi']
      exact fun hc => (mem_compl.1 hc).2 (List.mem_append_left _ hp)
    · rw [if_neg (c := i ∈ nextP L draw ps) hp]
      by_cases hg : i ∈ compl L.pts.length (nextP L draw ps ++ gs)
      · rw [if_pos ((mem_filterMap_pts hnd' hi').2 hg)]
      · rw [if_neg (by rwa [mem_filterMap_pts hnd' hi']), if_neg (by rwa [mem_filterMap_pts hnd' hi'])]
        have hgs : i ∈ gs := by
          by_contra hng
          exact hg (mem_compl.2 ⟨hi', by simp [hp, hng]⟩)
        have hn : 1 ≤ n := by
          rcases h.states with ⟨_, h2, _⟩ | ⟨_, h2⟩
          · rw [h2] at hgs; cases hgs
          · exact h2
        rw [h.labels hn i hi', if_neg]
        exact fun hps => h.disj i hps hgs

omit [DecidableEq P] in
theorem bits_same (L : Layer P) (b : P → Option ℤ) : Same L { L with attrs := { L.attrs with bit := b } } :=
  ⟨rfl, fun _ _ _ _ _ _ => rfl, rfl, rfl, rfl, rfl, rfl, rfl⟩

theorem Inv.same {L₀ L L' : Layer P} {n : ℕ} {ps gs : List ℕ} (h : Inv L₀ L n ps gs) (hs : Same L L') :
    Inv L₀ L' n ps gs := by
  have hp := hs.pts
  refine ⟨hs.pts.trans h.pts, hs.pSwap.trans h.pSwap, hs.delta.trans h.delta, hs.order.trans h.order,
    hs.perfect.trans h.perfect, fun i j hi hj hi' hj' => (hs.adj i j (by rw [h.pts]; exact hi)
      (by rw [h.pts]; exact hj) hi' hj').trans (h.adj i j hi hj _ _), ?_, ?_, ?_,
    h.disj, ?_, ?_⟩
  · rw [hs.states]; exact h.states
  · rw [hp]; exact h.psLt
  · rw [hp]; exact h.gsLt
  · rw [hp]; exact h.first
  · intro hn i hi
    have hi' : i < L.pts.length := by rw [← hp]; exact hi
    have : L'.pts[i] = L.pts[i] := by simp only [hp]
    rw [this, hs.state]
    exact h.labels hn i hi'

theorem Hist.inv {L₀ L : Layer P} {n : ℕ} (hf : Fresh L₀) (h : Hist L₀ n L) : ∃ ps gs, Inv L₀ L n ps gs := by
  induction h with
  | start =>
    obtain ⟨_, ps, h1, h2⟩ := hf
    exact ⟨ps, [], rfl, rfl, rfl, rfl, rfl, fun _ _ _ _ _ _ => rfl, Or.inl ⟨h1, rfl, rfl⟩, h2, by simp, by simp, by omega, by omega⟩
  | populate draw _ hd hp ih =>
    obtain ⟨ps, gs, hi⟩ := ih
    obtain ⟨L', h1, h2⟩ := hi.next hf.1 draw hd
    rw [hp] at h1
    obtain rfl := Option.some.inj h1
    exact ⟨_, _, h2⟩
  | measure _ _ _ _ _ _ _ _ hm ih =>
    obtain ⟨ps, gs, hi⟩ := ih
    exact ⟨ps, gs, hi.same (measureHom_same hm).1⟩
  | decode _ _ hm ih =>
    obtain ⟨ps, gs, hi⟩ := ih
    exact ⟨ps, gs, hi.same (innerDecoder_same hm).1⟩
  | bits b _ ih =>
    obtain ⟨ps, gs, hi⟩ := ih
    exact ⟨ps, gs, hi.same (bits_same _ b)⟩

theorem Inv.inds {L₀ L : Layer P} {n : ℕ} {ps gs : List ℕ} (h : Inv L₀ L n ps gs) (hn : 1 ≤ n) :
    L.pInds = some ps ∧ L.gkpInds = some gs := by
  rcases h.states with ⟨_, _, h3⟩ | ⟨h1, _⟩
  · omega
  · unfold Layer.pInds Layer.gkpInds
    rw [h1]
    simp [PyDict.get?]

/-- `populate_states` never fails. -/
theorem C45_total {L₀ L : Layer P} {n : ℕ} (hf : Fresh L₀) (h : Hist L₀ n L) (draw : List ℕ)
    (hd : ∀ i ∈ draw, i < L.pts.length) : ∃ L', populate L draw = some L' := by
  obtain ⟨ps, gs, hi⟩ := h.inv hf
  obtain ⟨L', h1, _⟩ := hi.next hf.1 draw hd
  exact ⟨L', h1⟩

/-- After any calls, the p-squeezed and the GKP indices are existing modes and disjoint. -/
theorem C45_disjoint {L₀ L : Layer P} {n : ℕ} (hf : Fresh L₀) (h : Hist L₀ n L) (hn : 1 ≤ n) :
    ∃ ps gs, L.pInds = some ps ∧ L.gkpInds = some gs ∧ (∀ i ∈ ps, i < L.pts.length) ∧
      (∀ i ∈ gs, i < L.pts.length) ∧ ∀ i, ¬(i ∈ ps ∧ i ∈ gs) := by
  obtain ⟨ps, gs, hi⟩ := h.inv hf
  exact ⟨ps, gs, (hi.inds hn).1, (hi.inds hn).2, hi.psLt, hi.gsLt, fun i hh => hi.disj i hh.1 hh.2⟩

/-- After the first call they also cover all modes. -/
theorem C45_first_call {L₀ L : Layer P} (hf : Fresh L₀) (h : Hist L₀ 1 L) :
    ∃ ps gs, L.pInds = some ps ∧ L.gkpInds = some gs ∧ ∀ i, (i ∈ ps ∨ i ∈ gs) ↔ i < L.pts.length := by
  obtain ⟨ps, gs, hi⟩ := h.inv hf
  refine ⟨ps, gs, (hi.inds le_rfl).1, (hi.inds le_rfl).2, fun i => ⟨?_, hi.first rfl i⟩⟩
  rintro (h1 | h1)
  · exact hi.psLt i h1
  · exact hi.gsLt i h1

/-- A later call loses every mode that had a GKP state before and is not squeezed now: the two lists cover
all modes if and only if no such mode exists. -/
theorem C45_later_calls {L₀ L L' : Layer P} {n : ℕ} (hf : Fresh L₀) (h : Hist L₀ n L) (hn : 1 ≤ n)
    (draw : List ℕ) (hd : ∀ i ∈ draw, i < L.pts.length) (hp : populate L draw = some L') :
    ∃ gs ps' gs', L.gkpInds = some gs ∧ L'.pInds = some ps' ∧ L'.gkpInds = some gs' ∧
      (∀ i, i ∈ gs' ↔ i < L.pts.length ∧ i ∉ ps' ∧ i ∉ gs) ∧
      ((∀ i, i < L.pts.length → i ∈ ps' ∨ i ∈ gs') ↔ ∀ i ∈ gs, i ∈ ps') := by
  obtain ⟨ps, gs, hi⟩ := h.inv hf
  obtain ⟨L'', h1, h2⟩ := hi.next hf.1 draw hd
  rw [hp] at h1
  obtain rfl := Option.some.inj h1
  have hc : ∀ i, i ∈ compl L.pts.length (nextP L draw ps ++ gs) ↔
      i < L.pts.length ∧ i ∉ nextP L draw ps ∧ i ∉ gs := by
    intro i; rw [mem_compl, List.mem_append, not_or]
  refine ⟨gs, _, _, (hi.inds hn).2, (h2.inds (by omega)).1, (h2.inds (by omega)).2, hc, ?_⟩
  constructor
  · intro hcov i hg
    rcases hcov i (hi.gsLt i hg) with h3 | h3
    · exact h3
    · exact absurd hg ((hc i).1 h3).2.2
  · intro hsub i hlt
    by_cases h3 : i ∈ nextP L draw ps
    · exact Or.inl h3
    · exact Or.inr ((hc i).2 ⟨hlt, h3, fun hg => h3 (hsub i hg)⟩)

/-- With swap-out probability one every mode is squeezed, at every call. -/
theorem C45_all_squeezed {L₀ L : Layer P} {n : ℕ} (hf : Fresh L₀) (h : Hist L₀ n L) (hn : 1 ≤ n)
    (hs : L₀.pSwap = some 1) : L.pInds = some (List.range L.pts.length) ∧ L.gkpInds = some [] := by
  have key : ∀ n L, Hist L₀ n L → 1 ≤ n → ∃ gs, Inv L₀ L n (List.range L.pts.length) gs ∧ gs = [] := by
    intro n L h
    induction h with
    | start => intro h; omega
    | populate draw h0 hd hp ih0 =>
      intro hn1
      obtain ⟨ps, gs, hi⟩ := h0.inv hf
      obtain ⟨L'', h1, h2⟩ := hi.next hf.1 draw hd
      rw [hp] at h1
      obtain rfl := Option.some.inj h1
      have hsw := hi.pSwap.trans hs
      rename_i L1 L2
      have hnx : nextP L1 draw ps = List.range L1.pts.length := by
        unfold nextP
        rw [if_pos ⟨1, hsw, one_ne_zero⟩, if_pos hsw]
      have hpt : L2.pts = L1.pts := h2.pts.trans hi.pts.symm
      rw [hnx] at h2
      refine ⟨_, hpt ▸ h2, ?_⟩
      rw [List.eq_nil_iff_forall_not_mem]
      intro i hc
      rw [mem_compl, List.mem_append, List.mem_range] at hc
      exact hc.2 (Or.inl hc.1)
    | measure _ _ _ _ _ _ _ _ hm ih =>
      intro hn
      obtain ⟨gs, hi, h0⟩ := ih hn
      have hsm := (measureHom_same hm).1
      refine ⟨gs, ?_, h0⟩
      rw [hsm.pts]
      exact hi.same hsm
    | decode _ _ hm ih =>
      intro hn
      obtain ⟨gs, hi, h0⟩ := ih hn
      have hsm := (innerDecoder_same hm).1
      refine ⟨gs, ?_, h0⟩
      rw [hsm.pts]
      exact hi.same hsm
    | bits b _ ih =>
      intro hn
      obtain ⟨gs, hi, h0⟩ := ih hn
      exact ⟨gs, hi.same (bits_same _ b), h0⟩
  obtain ⟨gs, hi, rfl⟩ := key n L h hn
  exact hi.inds hn

/-- Without swap-out the p-squeezed modes never change, but the GKP modes are the others only after an odd
number of calls: after an even number there are none. -/
theorem C45_alternates {L₀ L : Layer P} {n : ℕ} (hf : Fresh L₀) (h : Hist L₀ n L) (hn : 1 ≤ n)
    (hs : ∀ x, L₀.pSwap = some x → x = 0) :
    ∃ ps gs, L₀.pInds = some ps ∧ L.pInds = some ps ∧ L.gkpInds = some gs ∧
      (Odd n → ∀ i, i ∈ gs ↔ i < L.pts.length ∧ i ∉ ps) ∧ (Even n → gs = []) := by
  obtain ⟨hnd, ps₀, h0, h0lt⟩ := id hf
  have hsw : ∀ L : Layer P, L.pSwap = L₀.pSwap → ¬swaps L := by
    rintro L hL ⟨x, hx, hne⟩
    exact hne (hs x (hL ▸ hx))
  have key : ∀ n L, Hist L₀ n L → ∃ gs, Inv L₀ L n ps₀ gs ∧
      (Odd n → ∀ i, i ∈ gs ↔ i < L.pts.length ∧ i ∉ ps₀) ∧ (Even n → gs = []) := by
    intro n L h
    induction h with
    | start =>
      exact ⟨[], ⟨rfl, rfl, rfl, rfl, rfl, fun _ _ _ _ _ _ => rfl, Or.inl ⟨h0, rfl, rfl⟩, h0lt, by simp, by simp, by omega, by omega⟩,
        by simp, by simp⟩
    | populate draw h0' hd hp ih =>
      rename_i n' L1 L2
      obtain ⟨gs, hi, ho, he⟩ := ih
      obtain ⟨L'', h1, h2⟩ := hi.next hf.1 draw hd
      rw [hp] at h1
      obtain rfl := Option.some.inj h1
      have hnx : nextP L1 draw ps₀ = ps₀ := by
        unfold nextP
        rw [if_neg (hsw L1 hi.pSwap)]
      have hpt : L2.pts = L1.pts := h2.pts.trans hi.pts.symm
      rw [hnx] at h2
      refine ⟨_, h2, ?_, ?_⟩
      · intro hodd i
        have hev : Even n' := by
          rcases Nat.even_or_odd n' with h | h
          · exact h
          · exact absurd hodd (by rw [Nat.not_odd_iff_even]; exact h.add_one)
        rw [he hev, List.append_nil, mem_compl, hpt]
      · intro hev
        have hodd : Odd n' := by
          rcases Nat.even_or_odd n' with h | h
          · exact absurd hev (by rw [Nat.not_even_iff_odd]; exact h.add_one)
          · exact h
        rw [List.eq_nil_iff_forall_not_mem]
        intro i hc
        rw [mem_compl, List.mem_append, not_or, ho hodd] at hc
        exact hc.2.2 ⟨hc.1, hc.2.1⟩
    | measure _ _ _ _ _ _ _ _ hm ih =>
      obtain ⟨gs, hi, h3, h4⟩ := ih
      have hsm := (measureHom_same hm).1
      exact ⟨gs, hi.same hsm, by rw [hsm.pts]; exact h3, h4⟩
    | decode _ _ hm ih =>
      obtain ⟨gs, hi, h3, h4⟩ := ih
      have hsm := (innerDecoder_same hm).1
      exact ⟨gs, hi.same hsm, by rw [hsm.pts]; exact h3, h4⟩
    | bits b _ ih =>
      obtain ⟨gs, hi, h3, h4⟩ := ih
      exact ⟨gs, hi.same (bits_same _ b), h3, h4⟩
  obtain ⟨gs, hi, h3, h4⟩ := key n L h
  refine ⟨ps₀, gs, ?_, (hi.inds hn).1, (hi.inds hn).2, h3, h4⟩
  unfold Layer.pInds
  rw [h0]
  simp [PyDict.get?]

/-- After any calls every node is labelled, 'p' exactly on the current p-squeezed indices and 'GKP'
elsewhere. -/
theorem C46_labels {L₀ L : Layer P} {n : ℕ} (hf : Fresh L₀) (h : Hist L₀ n L) (hn : 1 ≤ n) :
    ∃ ps, L.pInds = some ps ∧ ∀ i (hi : i < L.pts.length),
      L.attrs.state L.pts[i] = some (if i ∈ ps then "p" else "GKP") := by
  obtain ⟨ps, gs, hi⟩ := h.inv hf
  exact ⟨ps, (hi.inds hn).1, hi.labels hn⟩

/-! ## Layers on a surface code -/

/-- A layer made by the constructor on a surface code, for some numbering `pts` of the nodes. -/
structure OnCode (code : Code) (pts : List V) (delta : ℝ) (pSwap : Option ℝ) (order : Order)
    (supplied : Option (List (String × List ℕ))) (L : Layer V) : Prop where
  perm : pts.Perm (PyDict.keys code.graph.nodes)
  made : codeLayer code pts delta pSwap order supplied = some L

/-- The constructor rejects a swap-out probability together with p-squeezed indices and accepts every
other combination. -/
theorem C53_constructor (pSwap : Option ℝ) (supplied : Option (List (String × List ℕ))) :
    (∀ x s ps, pSwap = some x → supplied = some s → PyDict.get? s "p" = some ps → ps ≠ [] →
      initStates pSwap supplied = none) ∧
    (supplied = none → initStates pSwap supplied = some [("p", [])]) ∧
    (∀ s, pSwap = none → supplied = some s → s ≠ [] → initStates pSwap supplied = some s) := by
  refine ⟨?_, ?_, ?_⟩
  · rintro x s ps rfl rfl hg hne
    unfold initStates
    simp only [hg, Option.bind_some]
    rw [if_pos (List.length_pos_iff.2 hne)]
  · rintro rfl
    unfold initStates
    cases pSwap <;> rfl
  · rintro s rfl rfl hne
    cases s with
    | nil => exact absurd rfl hne
    | cons e s => rfl

theorem OnCode.fields {code : Code} {pts : List V} {delta : ℝ} {pSwap : Option ℝ} {order : Order}
    {supplied : Option (List (String × List ℕ))} {L : Layer V} (h : OnCode code pts delta pSwap order supplied L) :
    L.pts = pts ∧ L.delta = delta ∧ L.pSwap = pSwap ∧ L.order = order ∧ L.perfect = [] ∧
      initStates pSwap supplied = some L.states ∧
      ∀ (i j : ℕ) (hi : i < L.pts.length) (hj : j < L.pts.length),
        L.adj ⟨i, hi⟩ ⟨j, hj⟩ = (edgeWeight code L.pts[i] L.pts[j] : ℝ) := by
  have := h.made
  unfold codeLayer at this
  rw [Option.map_eq_some_iff] at this
  obtain ⟨st, hst, rfl⟩ := this
  exact ⟨rfl, rfl, rfl, rfl, rfl, hst, fun _ _ _ _ => rfl⟩

/-- Standard deviation of the position quadrature of a mode, in the initial order. -/
noncomputable def sdQ (delta : ℝ) (ps gs : List ℕ) (j : ℕ) : ℝ :=
  if j ∈ gs then √(delta / 2) else if j ∈ ps then 1 / √(2 * delta) else 0

/-- Standard deviation of the momentum quadrature of a mode, in the initial order. -/
noncomputable def sdP (delta : ℝ) (ps gs : List ℕ) (j : ℕ) : ℝ :=
  if j ∈ gs ∨ j ∈ ps then √(delta / 2) else 0

/-- The momentum outcome of the mode at `x` with index `i`: its own momentum noise plus the position noise of
its neighbours times the weights of the edges. -/
noncomputable def outcomeP (code : Code) (pts : List V) (delta : ℝ) (ps gs : List ℕ) (z : ℕ → ℝ) (x : V) : ℝ :=
  sdP delta ps gs (pts.idxOf x) * z (pts.length + pts.idxOf x) +
    ∑ j : Fin pts.length, edgeWeight code x pts[j.val] * (sdQ delta ps gs j * z j)

theorem mem_syndromeInds {code : Code} (h : IsCode code) {pts : List V}
    (hp : pts.Perm (PyDict.keys code.graph.nodes)) :
    (∀ i ∈ syndromeInds code pts, i < pts.length) ∧
      ∀ i (hi : i < pts.length), i ∈ syndromeInds code pts ↔ pts[i] ∈ code.syndrome := by
  have hnd : pts.Nodup := hp.nodup_iff.2 h.ok.1.nodesNd
  have hin : ∀ x ∈ code.syndrome, x ∈ pts := by
    intro x hx
    rw [hp.mem_iff, h.ok.1.graphNodes]
    exact qubit_isNode ((h.ok.1.syndrome x).1 hx)
  unfold syndromeInds
  constructor
  · intro i hi
    rw [List.mem_map] at hi
    obtain ⟨x, hx, rfl⟩ := hi
    exact List.idxOf_lt_length_of_mem (hin x ((h.ok.1.mem_allCoords h.ok.2 x).1 hx))
  · intro i hi
    rw [List.mem_map]
    constructor
    · rintro ⟨x, hx, rfl⟩
      rw [List.getElem_idxOf]
      exact (h.ok.1.mem_allCoords h.ok.2 x).1 hx
    · intro hx
      exact ⟨_, (h.ok.1.mem_allCoords h.ok.2 _).2 hx, hnd.idxOf_getElem i hi⟩

theorem OnCode.fresh {code : Code} (h : IsCode code) {pts : List V} {delta : ℝ} {pSwap : Option ℝ} {order : Order}
    {L : Layer V} (hL : OnCode code pts delta pSwap order none L) : Fresh L := by
  obtain ⟨h1, _, _, _, _, h6, _⟩ := hL.fields
  refine ⟨by rw [h1]; exact hL.perm.nodup_iff.2 h.ok.1.nodesNd, [], ?_, by simp⟩
  rw [(C53_constructor pSwap none).2.1 rfl] at h6
  exact (Option.some.inj h6).symm

/-- Noise in the initial sampling order: every `apply_noise` succeeds, and every syndrome qubit gets its
outcome and the bit of that outcome. -/
theorem C53_apply_noise_initial {code : Code} (h : IsCode code) {pts : List V} {delta : ℝ} {pSwap : Option ℝ}
    {supplied : Option (List (String × List ℕ))} {L₀ L : Layer V}
    (hL : OnCode code pts delta pSwap .initial supplied L₀) (hf : Fresh L₀) (hd : 0 < delta) {n : ℕ}
    (hh : Hist L₀ n L) (draw : List ℕ) (hdr : ∀ i ∈ draw, i < pts.length) (r : Rnd) :
    ∃ L' ps gs, applyNoise L (syndromeInds code pts) code.syndrome draw r = some L' ∧
      L'.pInds = some ps ∧ L'.gkpInds = some gs ∧
      ∀ x ∈ code.syndrome, L'.attrs.homP x = some (outcomeP code pts delta ps gs r.z x) ∧
        L'.attrs.bit x = some (Gkp.gkpBinner (outcomeP code pts delta ps gs r.z x)) := by
  obtain ⟨f1, f2, f3, f4, f5, f6, f7⟩ := hL.fields
  obtain ⟨ps₀, gs₀, hi⟩ := hh.inv hf
  have hpts : L.pts = pts := hi.pts.trans f1
  obtain ⟨L1, p1, hi1⟩ := hi.next hf.1 draw (by rw [hpts]; exact hdr)
  set ps := nextP L draw ps₀
  set gs := compl L.pts.length (ps ++ gs₀)
  have hpts1 : L1.pts = pts := hi1.pts.trans f1
  have hs1 : L1.states = [("p", ps), ("GKP", gs)] := by
    rcases hi1.states with ⟨_, _, h0⟩ | ⟨h0, _⟩
    · omega
    · exact h0
  have hnd : L1.pts.Nodup := by rw [hi1.pts]; exact hf.1
  obtain ⟨m1, m2⟩ := mem_syndromeInds h hL.perm
  obtain ⟨L2, q1, q2, _⟩ := measure_initial L1 hnd ps gs hs1 (hi1.order.trans f4)
    (by rw [hi1.delta, f2]; exact hd) hi1.psLt hi1.gsLt .p (some (syndromeInds code pts)) false
    (by rw [hpts1]; exact m1) true r
  have hout : ∀ x ∈ code.syndrome, L2.attrs.homP x = some (outcomeP code pts delta ps gs r.z x) := by
    intro x hx
    have hxp : x ∈ pts := by
      rw [hL.perm.mem_iff, h.ok.1.graphNodes]
      exact qubit_isNode ((h.ok.1.syndrome x).1 hx)
    have hidx := List.idxOf_lt_length_of_mem hxp
    have hadj : ∀ (i j : ℕ) (hi : i < L1.pts.length) (hj : j < L1.pts.length),
        L1.adj ⟨i, hi⟩ ⟨j, hj⟩ = (edgeWeight code L1.pts[i] L1.pts[j] : ℝ) := by
      intro i j hi hj
      rw [hi1.adj i j (by rw [← hi1.pts]; exact hi) (by rw [← hi1.pts]; exact hj) hi hj, f7]
      simp only [hi1.pts]
    have hperf : L1.perfect = [] := hi1.perfect.trans f5
    have hdel : L1.delta = delta := hi1.delta.trans f2
    clear_value ps gs
    subst hpts1
    have := q2 (L1.pts.idxOf x) hidx
    rw [List.getElem_idxOf] at this
    refine this.trans ?_
    rw [if_pos]
    · congr 1
      unfold entangled outcomeP
      have e1 : devs L1 ps gs (L1.pts.length + L1.pts.idxOf x) = sdP delta ps gs (L1.pts.idxOf x) := by
        unfold devs sdP
        rw [if_neg (by omega), Nat.add_sub_cancel_left, hperf, hdel]
        by_cases h1 : L1.pts.idxOf x ∈ gs <;> by_cases h2 : L1.pts.idxOf x ∈ ps <;> simp [h1, h2]
      dsimp only
      rw [e1]
      congr 1
      apply Finset.sum_congr rfl
      intro j _
      have e2 : devs L1 ps gs j = sdQ delta ps gs j := by
        unfold devs sdQ
        rw [if_pos j.isLt, hperf, hdel]
        simp
      rw [dif_pos hidx, e2, hadj _ _ hidx j.isLt, List.getElem_idxOf]
    · simp only [Option.getD_some]
      rw [m2 _ hidx, List.getElem_idxOf]
      exact hx
  obtain ⟨L3, d1, d2⟩ := innerDecoder_ok L2 code.syndrome _ hout
  obtain ⟨s1, s2, _⟩ := innerDecoder_same d1
  have hi3 := (hi1.same (measureHom_same q1).1).same s1
  refine ⟨L3, ps, gs, ?_, (hi3.inds (by omega)).1, (hi3.inds (by omega)).2, fun x hx => ⟨?_, ?_⟩⟩
  · unfold applyNoise measureSyndrome
    simp only [Option.bind_eq_bind]
    rw [p1, Option.bind_some, q1, Option.bind_some, d1]
  · rw [s2]; exact hout x hx
  · rw [d2 x, if_pos hx]

/-- Without swap-out and without p-squeezed modes, the second, fourth, ... `apply_noise` of a layer is
noiseless: all outcomes and bits are zero. -/
theorem C45_noiseless {code : Code} (h : IsCode code) {pts : List V} {delta : ℝ} {L₀ L : Layer V}
    (hL : OnCode code pts delta none .initial none L₀) (hd : 0 < delta) {n : ℕ} (hh : Hist L₀ n L) (hn : Odd n)
    (draw : List ℕ) (hdr : ∀ i ∈ draw, i < pts.length) (r : Rnd) :
    ∃ L', applyNoise L (syndromeInds code pts) code.syndrome draw r = some L' ∧
      ∀ x ∈ code.syndrome, L'.attrs.homP x = some 0 ∧ L'.attrs.bit x = some 0 := by
  have hf := hL.fresh h
  obtain ⟨f1, f2, f3, f4, f5, f6, f7⟩ := hL.fields
  obtain ⟨L', ps, gs, h1, h2, h3, h4⟩ := C53_apply_noise_initial h hL hf hd hh draw hdr r
  obtain ⟨ps₀, gs₀, hi⟩ := hh.inv hf
  have hH := hh.apply _ _ draw r (by rw [hi.pts, f1]; exact hdr) h1
  obtain ⟨ps', gs', a1, a2, a3, _, a5⟩ := C45_alternates hf hH (by omega) (by rw [f3]; simp)
  have hp0 : ps' = [] := by
    rw [(C53_constructor none none).2.1 rfl] at f6
    unfold Layer.pInds at a1
    rw [← Option.some.inj f6] at a1
    simpa [PyDict.get?] using a1.symm
  rw [h2] at a2
  rw [h3] at a3
  obtain rfl := Option.some.inj a2
  obtain rfl := Option.some.inj a3
  have hg0 : gs = [] := a5 hn.add_one
  subst hp0 hg0
  have hz : ∀ x, outcomeP code pts delta [] [] r.z x = 0 := by
    intro x; simp [outcomeP, sdP, sdQ]
  refine ⟨L', h1, fun x hx => ⟨?_, ?_⟩⟩
  · rw [(h4 x hx).1, hz]
  · rw [(h4 x hx).2, hz]
    have := Gkp.gkpBinner_of_decomp 0 0 (by have := Gkp.binWidth_pos; linarith)
      (by have := Gkp.binWidth_pos; linarith)
    simpa using this

/-- In the two-step order `apply_noise` on a surface code always fails. -/
theorem C53_apply_noise_two_step {code : Code} (h : IsCode code) {pts : List V} {delta : ℝ} {pSwap : Option ℝ}
    {supplied : Option (List (String × List ℕ))} {L₀ L : Layer V}
    (hL : OnCode code pts delta pSwap .twoStep supplied L₀) (hf : Fresh L₀) {n : ℕ}
    (hh : Hist L₀ n L) (draw : List ℕ) (hdr : ∀ i ∈ draw, i < pts.length) (r : Rnd) :
    applyNoise L (syndromeInds code pts) code.syndrome draw r = none := by
  obtain ⟨f1, f2, f3, f4, f5, f6, f7⟩ := hL.fields
  obtain ⟨ps₀, gs₀, hi⟩ := hh.inv hf
  obtain ⟨L1, p1, hi1⟩ := hi.next hf.1 draw (by rw [hi.pts, f1]; exact hdr)
  have hlen := h.ok.1.allCoords_length h.ok.2
  have hpts1 : L1.pts = pts := hi1.pts.trans f1
  have hm : measureHom L1 .p (some (syndromeInds code pts)) false none none true r = none := by
    apply measure_two_step_fails _ (hi1.order.trans f4)
    · simp only [Option.getD_some, syndromeInds, List.length_map]; omega
    · simp only [Option.getD_some, syndromeInds, List.length_map]
      rw [hpts1, hL.perm.length_eq]; omega
  unfold applyNoise measureSyndrome
  simp only [Option.bind_eq_bind]
  rw [p1, Option.bind_some, hm, Option.bind_none]

/-! ## C53: single measurements -/

/-- Initial order: an outcome is recorded for every requested mode, for no other, and the other quadrature
is left alone.  Perfect modes have no noise.  The outcome of a position is its noise; that of a momentum is its noise plus the weighted
position noise of the other modes. -/
theorem C53_initial (L : Layer P) (hnd : L.pts.Nodup) (ps gs : List ℕ)
    (hs : L.states = [("p", ps), ("GKP", gs)]) (ho : L.order = .initial) (hd : 0 < L.delta)
    (hp : ∀ i ∈ ps, i < L.pts.length) (hg : ∀ i ∈ gs, i < L.pts.length) (quad : Quad)
    (inds : List ℕ) (isArray : Bool) (hi : ∀ i ∈ inds, i < L.pts.length) (propagate : Bool) (r : Rnd) :
    ∃ L', measureHom L quad (some inds) isArray none none propagate r = some L' ∧
      (∀ i (hlt : i < L.pts.length), i ∈ inds → L'.attrs.hom quad L.pts[i] = some (match quad with
        | .q => (if i ∈ L.perfect then 0 else sdQ L.delta ps gs i) * r.z i
        | .p => (if i ∈ L.perfect then 0 else sdP L.delta ps gs i) * r.z (L.pts.length + i) +
            ∑ j : Fin L.pts.length,
              L.adj ⟨i, hlt⟩ j * ((if j.val ∈ L.perfect then 0 else sdQ L.delta ps gs j) * r.z j))) ∧
      (∀ i (hlt : i < L.pts.length), i ∉ inds → L'.attrs.hom quad L.pts[i] = L.attrs.hom quad L.pts[i]) ∧
      ∀ quad', quad' ≠ quad → L'.attrs.hom quad' = L.attrs.hom quad' := by
  obtain ⟨L', h1, h2, h3⟩ := measure_initial L hnd ps gs hs ho hd hp hg quad (some inds) isArray hi propagate r
  have eQ : ∀ j, j < L.pts.length → devs L ps gs j = if j ∈ L.perfect then 0 else sdQ L.delta ps gs j := by
    intro j hj
    unfold devs sdQ
    rw [if_pos hj]
  have eP : ∀ j, devs L ps gs (L.pts.length + j) = if j ∈ L.perfect then 0 else sdP L.delta ps gs j := by
    intro j
    unfold devs sdP
    rw [if_neg (by omega), Nat.add_sub_cancel_left]
    by_cases h1 : j ∈ gs <;> by_cases h2 : j ∈ ps <;> simp [h1, h2]
  refine ⟨L', h1, fun i hlt hm => ?_, fun i hlt hm => ?_, h3⟩
  · rw [h2 i hlt, Option.getD_some, if_pos hm]
    congr 1
    unfold entangled
    cases quad with
    | q => dsimp only; rw [eQ i hlt]
    | p =>
      dsimp only
      rw [eP i]
      congr 1
      apply Finset.sum_congr rfl
      intro j _
      rw [dif_pos hlt, eQ j j.isLt]
  · rw [h2 i hlt, Option.getD_some, if_neg hm]

/-- The means of a homodyne measurement.  Initial order: all zero.  Two-step order: the position mean of a GKP
mode is a random bit times √π, that of a p-squeezed mode uniform on [0, 2√π), momentum means are zero; with
`propagate` the momentum mean of mode `i` becomes the sum of the neighbours' position means times the edge
weights. -/
theorem C53_means (L : Layer P) (ps gs : List ℕ) (hs : L.states = [("p", ps), ("GKP", gs)])
    (hp : ∀ i ∈ ps, i < L.pts.length) (hg : ∀ i ∈ gs, i < L.pts.length) (propagate : Bool) (r : Rnd) :
    (L.order = .initial → meansSampler L propagate r = some (List.replicate (2 * L.pts.length) 0)) ∧
    (L.order = .twoStep → ∃ m, meansSampler L propagate r = some m ∧ m.length = 2 * L.pts.length ∧
      ∀ i (hi : i < L.pts.length),
        let pos : ℕ → ℝ := fun k =>
          if k ∈ gs then r.b k * √Real.pi else if k ∈ ps then r.u k * (2 * √Real.pi) else 0
        m[i]? = some (pos i) ∧ m[L.pts.length + i]? =
          some (if propagate then ∑ j : Fin L.pts.length, L.adj ⟨i, hi⟩ j * pos j else 0)) := by
  constructor
  · intro ho
    unfold meansSampler
    simp only [ho]
    rw [Option.pure_def, Option.some_inj]
    apply List.ext_getElem?
    intro k
    simp only [toList, List.getElem?_map, List.getElem?_range, List.getElem?_replicate]
    by_cases hk : k < 2 * L.pts.length <;> simp [hk]
  · intro ho
    set f : ℕ → ℝ := fun k => if k ∈ gs then r.b k * √Real.pi else if k ∈ ps then r.u k * (2 * √Real.pi) else 0
      with hf
    have hfold : L.states.foldlM (fun a e => if 0 < e.2.length then
        (meanOf r e.1).bind fun f => assign (2 * L.pts.length) a e.2 f else some a) (fun _ => (0 : ℝ)) = some f := by
      have step : ∀ (a : ℕ → ℝ) (n : String) (l : List ℕ) (v : ℕ → ℝ), meanOf r n = some v →
          (∀ i ∈ l, i < L.pts.length) →
          (if 0 < l.length then (meanOf r n).bind fun f => assign (2 * L.pts.length) a l f else some a) =
            some fun i => if i ∈ l then v i else a i := by
        intro a n l v hv hl
        rcases l with _ | ⟨x, l⟩
        · simp
        · rw [if_pos (by simp), hv, Option.bind_some, assign_ok _ _ _ _ fun i hi => by have := hl i hi; omega]
      rw [hs, List.foldlM_cons, step _ "p" ps _ rfl hp]
      simp only [Option.bind_eq_bind, Option.bind_some, List.foldlM_cons, List.foldlM_nil]
      rw [step _ "GKP" gs _ rfl hg]
      rfl
    have hm : meansSampler L propagate r =
        if propagate then sczList L.adj (toList (2 * L.pts.length) f) else some (toList (2 * L.pts.length) f) := by
      unfold meansSampler
      simp only [ho, Option.bind_eq_bind]
      rw [hfold]
      rfl
    have hz : ∀ i, i < L.pts.length → f (L.pts.length + i) = 0 := by
      intro i hi
      rw [hf]
      dsimp only
      rw [if_neg (fun hc => by have := hg _ hc; omega), if_neg (fun hc => by have := hp _ hc; omega)]
    rw [hm]
    cases propagate with
    | false =>
      refine ⟨_, rfl, by simp [toList], fun i hi => ⟨toList_get _ _ (by omega), ?_⟩⟩
      rw [toList_get _ _ (by omega), hz i hi]
      rfl
    | true =>
      obtain ⟨o, h1, h2, h3, h4⟩ := sczList_ok L.adj f
      refine ⟨o, by rw [if_pos rfl]; exact h1, h2, fun i hi => ⟨?_, ?_⟩⟩
      · have := h3 i hi
        rwa [half, List.getElem?_take_of_lt hi] at this
      · have := h4 i hi
        rw [half, List.getElem?_drop] at this
        rw [this, hz i hi, zero_add]
        rfl

/-- Two-step order with supplied means: the outcome of a mode is its own mean plus noise (none on perfect
modes). -/
theorem C53_supplied_means (L : Layer P) (hnd : L.pts.Nodup) (ho : L.order = .twoStep) (hd : 0 ≤ L.delta)
    (quad : Quad) (inds : List ℕ) (isArray : Bool) (hi : ∀ i ∈ inds, i < L.pts.length) (hin : inds.Nodup)
    (hperf : L.perfect = [] ∨ isArray = true) (m : List ℝ) (hm : m.length = 2 * L.pts.length)
    (propagate : Bool) (r : Rnd) :
    ∃ L', measureHom L quad (some inds) isArray (some m) none propagate r = some L' ∧
      (∀ k (hk : k < inds.length) (hlt : inds[k] < L.pts.length), L'.attrs.hom quad L.pts[inds[k]] =
        some (m.getD (if quad = .q then inds[k] else L.pts.length + inds[k]) 0 +
          (if inds[k] ∈ L.perfect then 0 else √(L.delta / 2)) * r.z k)) ∧
      (∀ i (hlt : i < L.pts.length), i ∉ inds → L'.attrs.hom quad L.pts[i] = L.attrs.hom quad L.pts[i]) ∧
      ∀ quad', quad' ≠ quad → L'.attrs.hom quad' = L.attrs.hom quad' := by
  obtain ⟨L', h1, h2, h3, h4⟩ := measure_supplied L hnd ho quad inds isArray hi
    (fun i => if i ∈ L.perfect then 0 else √(L.delta / 2)) (fun i _ => by split_ifs <;> positivity)
    (covs_two_step_perfect L ho hd inds isArray hin hperf) m
    (fun i => m.getD (if quad = .q then i else L.pts.length + i) 0)
    (by
      intro i hlt
      cases quad with
      | q =>
        dsimp only [half]
        rw [if_pos rfl, List.getElem?_take_of_lt hlt, List.getD_eq_getElem m 0 (by omega), List.getElem?_eq_getElem]
      | p =>
        dsimp only [half]
        rw [if_neg (by decide), List.getElem?_drop, List.getD_eq_getElem m 0 (by omega), List.getElem?_eq_getElem])
    propagate r
  refine ⟨L', h1, fun k hk hlt => ?_, h3, h4⟩
  obtain ⟨k', hk', he⟩ := h2 inds[k] hlt (List.getElem_mem hk)
  rw [List.getElem?_eq_some_iff] at hk'
  obtain ⟨hk'', hk'⟩ := hk'
  rw [hin.getElem_inj_iff] at hk'
  subst hk'
  exact he

/-- Two-step order with supplied means and deviations: the outcome of a mode is its own mean plus its own
deviation times a normal sample; perfect modes are not treated specially. -/
theorem C53_supplied_covs (L : Layer P) (hnd : L.pts.Nodup) (ho : L.order = .twoStep)
    (quad : Quad) (inds : List ℕ) (isArray : Bool) (hi : ∀ i ∈ inds, i < L.pts.length) (hin : inds.Nodup)
    (m c : List ℝ) (hm : m.length = 2 * L.pts.length) (hc : c.length = 2 * L.pts.length) (hc0 : ∀ x ∈ c, 0 ≤ x)
    (propagate : Bool) (r : Rnd) :
    ∃ L', measureHom L quad (some inds) isArray (some m) (some c) propagate r = some L' ∧
      (∀ k (hk : k < inds.length) (hlt : inds[k] < L.pts.length), L'.attrs.hom quad L.pts[inds[k]] =
        some (m.getD (if quad = .q then inds[k] else L.pts.length + inds[k]) 0 +
          c.getD (if quad = .q then inds[k] else L.pts.length + inds[k]) 0 * r.z k)) ∧
      (∀ i (hlt : i < L.pts.length), i ∉ inds → L'.attrs.hom quad L.pts[i] = L.attrs.hom quad L.pts[i]) ∧
      ∀ quad', quad' ≠ quad → L'.attrs.hom quad' = L.attrs.hom quad' := by
  have hhalf : ∀ m : List ℝ, m.length = 2 * L.pts.length → ∀ i, i < L.pts.length →
      (half L.pts.length quad m)[i]? = some (m.getD (if quad = .q then i else L.pts.length + i) 0) := by
    intro m hm i hlt
    cases quad with
    | q =>
      dsimp only [half]
      rw [if_pos rfl, List.getElem?_take_of_lt hlt, List.getD_eq_getElem m 0 (by omega), List.getElem?_eq_getElem]
    | p =>
      dsimp only [half]
      rw [if_neg (by decide), List.getElem?_drop, List.getD_eq_getElem m 0 (by omega), List.getElem?_eq_getElem]
  obtain ⟨L', h1, h2, h3, h4⟩ := measure_supplied' L hnd ho quad inds isArray hi
    (fun i => c.getD (if quad = .q then i else L.pts.length + i) 0)
    (fun i hi' => by
      have := hi i hi'
      rw [List.getD_eq_getElem c 0 (by split_ifs <;> omega)]
      exact hc0 _ (List.getElem_mem _))
    (some c) (by
      rw [Option.elim_some]
      exact index_ok _ inds _ fun i hi' => hhalf c hc i (hi i hi'))
    m (fun i => m.getD (if quad = .q then i else L.pts.length + i) 0) (hhalf m hm) propagate r
  refine ⟨L', h1, fun k hk hlt => ?_, h3, h4⟩
  obtain ⟨k', hk', he⟩ := h2 inds[k] hlt (List.getElem_mem hk)
  rw [List.getElem?_eq_some_iff] at hk'
  obtain ⟨hk'', hk'⟩ := hk'
  rw [hin.getElem_inj_iff] at hk'
  subst hk'
  exact he

/-- Two-step order without supplied means: measuring fails unless exactly one mode, or a list of twice as
many indices as there are modes, is requested. -/
theorem C53_two_step_fails (L : Layer P) (ho : L.order = .twoStep) (quad : Quad) (inds : Option (List ℕ))
    (isArray propagate : Bool) (r : Rnd) (h1 : (inds.getD (List.range L.pts.length)).length ≠ 1)
    (h2 : (inds.getD (List.range L.pts.length)).length ≠ 2 * L.pts.length) :
    measureHom L quad inds isArray none none propagate r = none :=
  measure_two_step_fails L ho quad inds isArray propagate r h1 h2

/-- ... and a single mode gets the position mean of mode 0, whichever mode and quadrature was asked for. -/
theorem C53_single_mode_wrong (L L' : Layer P) (hnd : L.pts.Nodup) (ho : L.order = .twoStep)
    (hperf : L.perfect = []) (quad : Quad) (i : ℕ) (hi : i < L.pts.length) (isArray propagate : Bool) (r : Rnd)
    (h : measureHom L quad (some [i]) isArray none none propagate r = some L') :
    ∃ m, meansSampler L propagate r = some m ∧
      L'.attrs.hom quad L.pts[i] = some (m.getD 0 0 + √(L.delta / 2) * r.z 0) := by
  unfold measureHom at h
  simp only [Option.elim_none, Option.getD_some, Option.bind_eq_bind, Option.bind_eq_some_iff] at h
  obtain ⟨m, hm, c, hc, o, hn, o', he, h⟩ := h
  have hml := means_length L propagate r hm
  have hdel : 0 ≤ L.delta := by
    by_contra hneg
    unfold covsSampler at hc
    simp only [ho] at hc
    rw [if_pos (not_le.1 hneg)] at hc
    cases hc
  rw [covs_two_step L ho hdel _ _ hperf] at hc
  obtain rfl := Option.some.inj hc
  have ho' : o' = o := by
    unfold entangleOutcomes at he
    simp only [ho] at he
    exact (Option.some.inj he).symm
  subst ho'
  have hcons : ∃ x t, m = x :: t := by
    cases m with
    | nil => rw [List.length_nil] at hml; omega
    | cons x t => exact ⟨x, t, rfl⟩
  obtain ⟨x, t, rfl⟩ := hcons
  refine ⟨_, hm, ?_⟩
  have h0 : o'[0]? = some (x + √(L.delta / 2) * r.z 0) := by
    unfold normal broadcast at hn
    simp only [List.map_cons, List.map_nil, List.length_cons, List.length_nil] at hn
    by_cases ht : t = []
    · subst ht; simp at hml; omega
    · have ht' : ¬ (t.length + 1 = 0 + 1) := by
        have := List.length_pos_iff.2 ht; omega
      rw [if_neg ht', if_neg ht', if_pos trivial] at hn
      simp only [Option.bind_eq_bind, Option.bind_some] at hn
      split_ifs at hn
      have := Option.some.inj hn
      rw [← this]
      simp
  obtain ⟨L'', r1, r2, _⟩ := record_ok quad o' (fun _ => x + √(L.delta / 2) * r.z 0) [(i, 0)] L hnd (by
    intro e he
    rw [List.mem_singleton] at he
    subst he
    exact ⟨hi, h0⟩)
  have hz : [i].zipIdx = [(i, 0)] := rfl
  rw [hz, r1] at h
  obtain rfl := Option.some.inj h
  rw [r2 i hi]
  simp

/-! ## C47 -/

/-- Ideal GKP states (positions any integer multiples of √π, momenta 0), entangled by the CZ gates of the
code with edge weights ±1, and measured with errors below half a bin: every stabilizer is even. -/
theorem C47_any_values {o : SetOrder} {ec : Ec} {b : Boundaries} {dims : Fin 3 → ℕ} {pol : Option (V → V → ℤ)}
    {code : Code} (hdim : ∀ i, 2 ≤ dims i) (hc : surfaceCode o ec b dims pol = some code)
    (hpol : ∀ u v, weightOf pol u v = 1 ∨ weightOf pol u v = -1)
    {pts : List V} {delta : ℝ} {pSwap : Option ℝ} {supplied : Option (List (String × List ℕ))} {L : Layer V}
    (hL : OnCode code pts delta pSwap .twoStep supplied L) (hd : 0 ≤ delta) {L₁ : Layer V} {n₁ : ℕ}
    (hf : Fresh L) (hh : Hist L n₁ L₁) (n : ℕ → ℤ) {m : List ℝ}
    (hm : sczList L.adj (toList (2 * L.pts.length) fun k => if k < L.pts.length then n k * √Real.pi else 0) = some m)
    (propagate : Bool) (r : Rnd) (hz : ∀ k, |√(delta / 2) * r.z k| < √Real.pi / 2) :
    ∃ L₂ L₃, measureHom L₁ .p (some (syndromeInds code pts)) false (some m) none propagate r = some L₂ ∧
      innerDecoder L₂ code.syndrome = some L₃ ∧
      (∀ x ∈ code.syndrome, L₃.attrs.bit x = some 0 ∨ L₃.attrs.bit x = some 1) ∧
      (∀ x ∈ code.syndrome, decide (L₃.attrs.bit x = some 1) =
        parity (fun y => decide (Odd (n (pts.idxOf y)))) (neighbors code x)) ∧
      trivialSyndrome code (fun x => decide (L₃.attrs.bit x = some 1)) := by
  have h : IsCode code := ⟨o, ec, b, dims, pol, hdim, hc⟩
  have hw := unit_weights hdim hc hpol
  obtain ⟨f1, f2, f3, f4, f5, f6, f7⟩ := hL.fields
  obtain ⟨ps₀, gs₀, hi⟩ := hh.inv hf
  have hpts1 : L₁.pts = L.pts := hi.pts
  have hnd : L₁.pts.Nodup := by rw [hpts1]; exact hf.1
  have hndp : pts.Nodup := by rw [← f1]; exact hf.1
  obtain ⟨m1, m2⟩ := mem_syndromeInds h hL.perm
  obtain ⟨mm, s1, s2, s3, s4⟩ := sczList_ok L.adj
    fun k => if k < L.pts.length then (n k : ℝ) * √Real.pi else 0
  rw [hm] at s1
  obtain rfl := Option.some.inj s1
  -- the integer in front of √π
  set K : ℕ → ℤ := fun i => if hi : i < pts.length then
    ∑ j : Fin pts.length, edgeWeight code pts[i] pts[j.val] * n j else 0 with hK
  have hdel : L₁.delta = delta := hi.delta.trans f2
  obtain ⟨L₂, q1, q2, _⟩ := measure_supplied L₁ hnd (hi.order.trans f4) .p
    (syndromeInds code pts) false (by rw [hpts1, f1]; exact m1) (fun _ => √(L₁.delta / 2))
    (fun _ _ => Real.sqrt_nonneg _)
    (covs_two_step L₁ (hi.order.trans f4) (by rw [hdel]; exact hd) _ _ (hi.perfect.trans f5)) m
    (fun i => K i * √Real.pi) (by
      intro i hlt
      rw [hpts1] at hlt ⊢
      rw [s4 i hlt, if_neg (by omega), zero_add]
      congr 1
      clear s2 s3 s4 hm m2
      subst f1
      rw [hK]
      simp only [dif_pos hlt]
      rw [Int.cast_sum, Finset.sum_mul]
      apply Finset.sum_congr rfl
      intro j _
      rw [if_pos j.isLt, f7 i j hlt j.isLt]
      push_cast
      ring) propagate r
  have hbin : ∀ x ∈ code.syndrome, ∃ v, L₂.attrs.homP x = some v ∧
      Gkp.gkpBinner v = K (pts.idxOf x) % 2 := by
    intro x hx
    have hxp : x ∈ pts := by
      rw [hL.perm.mem_iff, h.ok.1.graphNodes]
      exact qubit_isNode ((h.ok.1.syndrome x).1 hx)
    have hidx := List.idxOf_lt_length_of_mem hxp
    have hmem : pts.idxOf x ∈ syndromeInds code pts := by
      rw [m2 _ hidx, List.getElem_idxOf]; exact hx
    have hlt : pts.idxOf x < L₁.pts.length := by rw [hpts1, f1]; exact hidx
    obtain ⟨k, _, hk⟩ := q2 (pts.idxOf x) hlt hmem
    have hx' : L₁.pts[pts.idxOf x] = x := by
      simp only [hpts1, f1]
      exact List.getElem_idxOf _
    rw [hx'] at hk
    refine ⟨_, hk, ?_⟩
    have hzk := abs_lt.1 (hz k)
    rw [hdel]
    exact Gkp.gkpBinner_of_decomp (K (pts.idxOf x)) _ (by unfold Gkp.binWidth; linarith)
      (by unfold Gkp.binWidth; linarith)
  choose! v hv1 hv2 using hbin
  obtain ⟨L₃, d1, d2⟩ := innerDecoder_ok L₂ code.syndrome v hv1
  have hbit : ∀ x ∈ code.syndrome, L₃.attrs.bit x = some (K (pts.idxOf x) % 2) := by
    intro x hx
    rw [d2 x, if_pos hx, hv2 x hx]
  have hpar : ∀ x ∈ code.syndrome, decide (L₃.attrs.bit x = some 1) =
      parity (fun y => decide (Odd (n (pts.idxOf y)))) (neighbors code x) := by
    intro x hx
    rw [← neighbour_parity code hw hL.perm hndp n x]
    have hxp : x ∈ pts := by
      rw [hL.perm.mem_iff, h.ok.1.graphNodes]
      exact qubit_isNode ((h.ok.1.syndrome x).1 hx)
    have hidx := List.idxOf_lt_length_of_mem hxp
    have : K (pts.idxOf x) = ∑ j : Fin pts.length, edgeWeight code x pts[j.val] * n j := by
      rw [hK]
      simp only [dif_pos hidx, List.getElem_idxOf]
    rw [hbit x hx, this, decide_eq_decide, Option.some.injEq, Int.odd_iff]
  refine ⟨L₂, L₃, q1, d1, fun x hx => ?_, hpar, C26_noiseless h _ _ hpar⟩
  rw [hbit x hx]
  rcases Int.emod_two_eq_zero_or_one (K (pts.idxOf x)) with h0 | h0 <;> simp [h0]

/-- The same with the library's own random GKP positions: an all-GKP layer in the two-step order, populated,
with propagated sampled means. -/
theorem C47_noiseless {o : SetOrder} {ec : Ec} {b : Boundaries} {dims : Fin 3 → ℕ} {pol : Option (V → V → ℤ)}
    {code : Code} (hdim : ∀ i, 2 ≤ dims i) (hc : surfaceCode o ec b dims pol = some code)
    (hpol : ∀ u v, weightOf pol u v = 1 ∨ weightOf pol u v = -1)
    {pts : List V} {delta : ℝ} {L : Layer V} (hL : OnCode code pts delta none .twoStep none L) (hd : 0 ≤ delta)
    (r r' : Rnd) (propagate : Bool) (hz : ∀ k, |√(delta / 2) * r'.z k| < √Real.pi / 2) :
    ∃ L₁ m L₂ L₃, populate L [] = some L₁ ∧ meansSampler L₁ true r = some m ∧
      measureHom L₁ .p (some (syndromeInds code pts)) false (some m) none propagate r' = some L₂ ∧
      innerDecoder L₂ code.syndrome = some L₃ ∧
      (∀ x ∈ code.syndrome, L₃.attrs.bit x = some 0 ∨ L₃.attrs.bit x = some 1) ∧
      (∀ x ∈ code.syndrome, decide (L₃.attrs.bit x = some 1) =
        parity (fun y => decide (Odd (r.b (pts.idxOf y)))) (neighbors code x)) ∧
      trivialSyndrome code (fun x => decide (L₃.attrs.bit x = some 1)) := by
  have h : IsCode code := ⟨o, ec, b, dims, pol, hdim, hc⟩
  have hf := hL.fresh h
  obtain ⟨f1, f2, f3, f4, f5, f6, f7⟩ := hL.fields
  have hst : L.states = [("p", [])] := by
    rw [(C53_constructor none none).2.1 rfl] at f6
    exact (Option.some.inj f6).symm
  have hnx : nextP L [] [] = [] := by unfold nextP; split_ifs with h1 h2 <;> simp_all
  have hpop := populate_spec L [] [] [] (Or.inl ⟨hst, rfl⟩) (by rw [hnx]; simp)
  rw [hnx] at hpop
  set L₁ := ((L.withStates [("p", []), ("GKP", compl L.pts.length ([] ++ []))]).withState fun p =>
      if p ∈ (compl L.pts.length ([] ++ [])).filterMap (L.pts[·]?) then some "GKP"
      else if p ∈ ([] : List ℕ).filterMap (L.pts[·]?) then some "p" else L.attrs.state p) with hL₁
  obtain ⟨m, s1, _⟩ := sczList_ok L.adj fun k => if k < L.pts.length then (r.b k : ℝ) * √Real.pi else 0
  have hmean : meansSampler L₁ true r = some m := by
    have ho1 : L₁.order = .twoStep := f4
    have hs1 : L₁.states = [("p", []), ("GKP", compl L.pts.length ([] ++ []))] := rfl
    unfold meansSampler
    rw [ho1, hs1]
    simp only [List.foldlM_cons, List.foldlM_nil, List.length_nil, lt_irrefl, if_false]
    have hg : meanOf r "GKP" = some fun i => (r.b i : ℝ) * √Real.pi := by
      unfold meanOf; simp [PyDict.get?]
    have hfn : (fun i => if i ∈ compl L.pts.length ([] ++ []) then (r.b i : ℝ) * √Real.pi else 0) =
        fun k => if k < L.pts.length then (r.b k : ℝ) * √Real.pi else 0 := by
      funext k
      refine if_congr ?_ rfl rfl
      rw [mem_compl]; simp
    have hstep : (if 0 < (compl L.pts.length ([] ++ [])).length then (meanOf r "GKP").bind fun f =>
        assign (2 * L₁.pts.length) (fun _ => (0 : ℝ)) (compl L.pts.length ([] ++ [])) f else some fun _ => 0) =
        some fun k => if k < L.pts.length then (r.b k : ℝ) * √Real.pi else 0 := by
      split_ifs with h0
      · rw [hg, Option.bind_some, assign_ok _ _ _ _ (fun i hi => by
          have := (mem_compl.1 hi).1
          have e : L₁.pts.length = L.pts.length := rfl
          omega), hfn]
      · rw [← hfn]
        congr 1
        funext k
        rw [if_neg]
        intro hk
        exact h0 (List.length_pos_of_mem hk)
    have hb : ∀ x : Option (ℕ → ℝ), (some (fun _ : ℕ => (0 : ℝ)) >>= fun _ => x) = x := fun _ => rfl
    simp only [Option.bind_eq_bind, Option.bind_some]
    rw [hstep]
    simp only [Option.bind_some, if_true]
    exact s1
  have hH : Hist L 1 L₁ := .populate [] .start (by simp) hpop
  obtain ⟨L₂, L₃, a1, a2, a3, a4⟩ := C47_any_values hdim hc hpol hL hd hf hH r.b s1 propagate r' hz
  exact ⟨L₁, m, L₂, L₃, hpop, hmean, a1, a2, a3, a4⟩

/-! ## The hypotheses are satisfiable -/

/-- Layers of every order on codes of every kind exist, and can be populated. -/
theorem onCode_exists (ec : Ec) (b : Boundaries) (delta : ℝ) (pSwap : Option ℝ) (order : Order) :
    ∃ code pts L, IsCode code ∧ OnCode code pts delta pSwap order none L ∧ Fresh L ∧ ∃ L', Hist L 1 L' := by
  obtain ⟨code, h, h1, h2, h3⟩ := C54_constructor_total idOrder ec b (dims := fun _ => 3) (by simp) none
  have hcode : IsCode code := ⟨idOrder, ec, b, _, none, by simp, h⟩
  have hex : ∃ L, codeLayer code (PyDict.keys code.graph.nodes) delta pSwap order none = some L := by
    unfold codeLayer
    rw [(C53_constructor pSwap none).2.1 rfl]
    exact ⟨_, rfl⟩
  obtain ⟨L, hL⟩ := hex
  have hon : OnCode code _ delta pSwap order none L := ⟨List.Perm.refl _, hL⟩
  obtain ⟨L', hp⟩ := C45_total (hon.fresh hcode) .start [] (by simp)
  exact ⟨code, _, L, hcode, hon, hon.fresh hcode, L', .populate [] .start (by simp) hp⟩

-- both documented polarities are ±1
example (u v : V) : weightOf none u v = 1 ∨ weightOf none u v = -1 := Or.inl rfl

example (u v : V) : weightOf (some alternatingPolarity) u v = 1 ∨ weightOf (some alternatingPolarity) u v = -1 := by
  simp only [weightOf, alternatingPolarity]
  split_ifs
  · exact neg_one_pow_eq_or ℤ _
  · exact neg_one_pow_eq_or ℤ _
  · exact neg_one_pow_eq_or ℤ _
  · exact Or.inl rfl

-- a noiseless trial: delta = 0, any random deviates
example (z : ℕ → ℝ) : ∀ k, |√((0 : ℝ) / 2) * z k| < √Real.pi / 2 := by
  intro k
  rw [zero_div, Real.sqrt_zero, zero_mul, abs_zero]
  exact div_pos (Real.sqrt_pos.2 Real.pi_pos) two_pos

-- three modes, the middle one squeezed: the first call covers all, the second loses the two GKP modes
example : ∃ L₁ L₂ : Layer ℕ, populate
      ⟨[10, 11, 12], 0, 1, none, .initial, [], [("p", [1])], ⟨fun _ => none, fun _ => none, fun _ => none, fun _ => none⟩⟩ []
      = some L₁ ∧ populate L₁ [] = some L₂ ∧ L₁.gkpInds = some [0, 2] ∧ L₂.gkpInds = some [] ∧
      L₂.attrs.state 10 = some "GKP" := by
  have hns : ∀ L : Layer ℕ, L.pSwap = none → ¬swaps L := by
    rintro L h ⟨x, hx, _⟩
    rw [h] at hx
    cases hx
  have h1 := populate_spec (⟨[10, 11, 12], 0, 1, none, .initial, [], [("p", [1])],
    ⟨fun _ => none, fun _ => none, fun _ => none, fun _ => none⟩⟩ : Layer ℕ) [1] [] []
    (Or.inl ⟨rfl, rfl⟩) (by unfold nextP; rw [if_neg (hns _ rfl)]; simp)
  have hn1 : nextP (⟨[10, 11, 12], 0, 1, none, .initial, [], [("p", [1])],
    ⟨fun _ => none, fun _ => none, fun _ => none, fun _ => none⟩⟩ : Layer ℕ) [] [1] = [1] := by
    unfold nextP; rw [if_neg (hns _ rfl)]
  rw [hn1] at h1
  refine ⟨_, _, h1, populate_spec _ [1] [0, 2] [] (Or.inr rfl) ?_, rfl, ?_, ?_⟩
  · unfold nextP; rw [if_neg (hns _ rfl)]; intro i hi; simp at hi; subst hi; decide
  · unfold nextP; rw [if_neg (hns _ rfl)]; rfl
  · unfold nextP; rw [if_neg (hns _ rfl)]; rfl

end Flamingpy.Noise
