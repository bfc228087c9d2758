import Verif.Proofs.NoiseHom
import Verif.Props.Gkp
import Verif.Props.SurfaceCode
import Mathlib.Tactic.NormNum
import Mathlib.Algebra.BigOperators.Ring.Finset
import Mathlib.Data.Fintype.Fin

/-! # Noise layers on surface codes -/

namespace Flamingpy.Noise

open Flamingpy Flamingpy.SurfaceCode

variable {P : Type} [DecidableEq P]

/-! ### Recording with repeated indices -/

theorem record_dup (quad : Quad) (outcomes : List ℝ) (l : List (ℕ × ℕ)) (L : Layer P)
    (hnd : L.pts.Nodup) (h : ∀ e ∈ l, e.1 < L.pts.length ∧ e.2 < outcomes.length) :
    ∃ L', l.foldlM (recordOne quad outcomes) L = some L' ∧
      (∀ i (hi : i < L.pts.length), i ∈ l.map (·.1) →
        ∃ k, (i, k) ∈ l ∧ L'.attrs.hom quad L.pts[i] = outcomes[k]?) ∧
      (∀ i (hi : i < L.pts.length), i ∉ l.map (·.1) → L'.attrs.hom quad L.pts[i] = L.attrs.hom quad L.pts[i]) ∧
      (∀ quad', quad' ≠ quad → L'.attrs.hom quad' = L.attrs.hom quad') := by
  induction l generalizing L with
  | nil => exact ⟨L, rfl, by simp, by simp, by simp⟩
  | cons e l ih =>
    obtain ⟨he, ho⟩ := h e (by simp)
    have h1 : recordOne quad outcomes L e = some { L with attrs := setHom quad L.attrs L.pts[e.1] outcomes[e.2] } := by
      unfold recordOne
      rw [List.getElem?_eq_getElem he, List.getElem?_eq_getElem ho]
      rfl
    rw [List.foldlM_cons, h1]
    obtain ⟨L', h2, h3, h3', h4⟩ := ih { L with attrs := setHom quad L.attrs L.pts[e.1] outcomes[e.2] } hnd
      fun e' he' => h e' (by simp [he'])
    have h0 : ∀ i (hi : i < L.pts.length), (setHom quad L.attrs L.pts[e.1] outcomes[e.2]).hom quad L.pts[i] =
        if i = e.1 then some outcomes[e.2] else L.attrs.hom quad L.pts[i] := by
      intro i hi
      rw [setHom_hom]
      by_cases hie : i = e.1
      · subst hie; simp
      · have : L.pts[i] ≠ L.pts[e.1] := by rwa [Ne, hnd.getElem_inj_iff]
        simp [hie, this]
    refine ⟨L', h2, fun i hi hm => ?_, fun i hi hm => ?_, fun quad' hq => ?_⟩
    · by_cases hml : i ∈ l.map (·.1)
      · obtain ⟨k, hk, hk'⟩ := h3 i hi hml
        exact ⟨k, List.mem_cons_of_mem _ hk, hk'⟩
      · rw [List.map_cons, List.mem_cons] at hm
        have hie : i = e.1 := hm.resolve_right hml
        refine ⟨e.2, by rw [hie]; exact List.mem_cons_self, ?_⟩
        refine (h3' i hi hml).trans ((h0 i hi).trans ?_)
        rw [if_pos hie, List.getElem?_eq_getElem ho]
    · rw [List.map_cons, List.mem_cons, not_or] at hm
      refine (h3' i hi hm.2).trans ((h0 i hi).trans ?_)
      rw [if_neg hm.1]
    · rw [h4 quad' hq]
      funext p
      rw [setHom_hom]
      simp [hq]

/-! ### Two-step sampling -/

omit [DecidableEq P] in
theorem covs_two_step (L : Layer P) (ho : L.order = .twoStep) (hd : 0 ≤ L.delta) (inds : List ℕ) (isArray : Bool)
    (hp : L.perfect = []) : covsSampler L inds isArray = some (inds.map fun _ => √(L.delta / 2)) := by
  unfold covsSampler
  simp [ho, not_lt.2 hd, hp]

omit [DecidableEq P] in
theorem set_fold_get (s : List ℕ) (inds : List ℕ) (c : List ℝ) (hl : c.length = inds.length)
    (hs : ∀ i ∈ s, i ∈ inds) (hn : inds.Nodup) (k : ℕ) (hk : k < inds.length) :
    (s.foldl (fun c i => c.set (inds.idxOf i) 0) c)[k]? = if inds[k] ∈ s then some 0 else c[k]? := by
  induction s generalizing c with
  | nil => simp
  | cons i s ih =>
    rw [List.foldl_cons, ih _ (by simpa using hl) fun j hj => hs j (by simp [hj])]
    by_cases h1 : inds[k] ∈ s
    · simp [h1]
    · simp only [h1, if_false, List.mem_cons, or_false]
      rw [List.getElem?_set]
      have hi : i ∈ inds := hs i (by simp)
      by_cases h2 : inds[k] = i
      · have : inds.idxOf i = k := by rw [← h2]; exact hn.idxOf_getElem k hk
        simp [this, h2, hl, hk]
      · have : inds.idxOf i ≠ k := by
          intro hc
          apply h2
          subst hc
          exact List.getElem_idxOf hk
        simp [this, h2]

omit [DecidableEq P] in
theorem covs_two_step_perfect (L : Layer P) (ho : L.order = .twoStep) (hd : 0 ≤ L.delta) (inds : List ℕ)
    (isArray : Bool) (hn : inds.Nodup) (hp : L.perfect = [] ∨ isArray = true) :
    covsSampler L inds isArray = some (inds.map fun i => if i ∈ L.perfect then 0 else √(L.delta / 2)) := by
  unfold covsSampler
  simp only [ho, if_neg (not_lt.2 hd)]
  rw [if_neg]
  · congr 1
    apply List.ext_getElem?
    intro k
    by_cases hk : k < inds.length
    · rw [set_fold_get _ _ _ (by simp) (fun i hi => by
        rw [List.mem_filter, List.mem_dedup] at hi; exact hi.1) hn k hk]
      simp only [List.mem_filter, List.mem_dedup, List.getElem_mem, true_and, decide_eq_true_eq,
        List.getElem?_map, List.getElem?_eq_getElem hk, Option.map_some]
      split_ifs <;> rfl
    · have hlen : ∀ (s : List ℕ) (c : List ℝ), (s.foldl (fun c i => c.set (inds.idxOf i) 0) c).length = c.length := by
        intro s
        induction s with
        | nil => intro c; rfl
        | cons i s ih => intro c; rw [List.foldl_cons, ih, List.length_set]
      rw [List.getElem?_eq_none (by rw [hlen, List.length_map]; omega),
        List.getElem?_eq_none (by rw [List.length_map]; omega)]
  · rintro ⟨h1, h2⟩
    rcases hp with h | h
    · simp [h] at h1
    · rw [h] at h2; cases h2

theorem normal_map (inds : List ℕ) (m c : ℕ → ℝ) (z : ℕ → ℝ) (hc : ∀ i ∈ inds, 0 ≤ c i) :
    normal (inds.map m) (inds.map c) z = some (inds.zipIdx.map fun e => m e.1 + c e.1 * z e.2) := by
  unfold normal broadcast
  rw [if_pos (by simp)]
  have : ¬ ∃ x ∈ inds.map c, x < 0 := by
    rintro ⟨x, hx, h0⟩
    rw [List.mem_map] at hx
    obtain ⟨i, hi, rfl⟩ := hx
    have := hc i hi
    linarith
  rw [Option.bind_eq_bind, Option.bind_some, if_neg this]
  change some _ = some _
  congr 1
  rw [List.zip_map', List.zipIdx_map, List.map_map]
  rfl

/-- Measuring with supplied means (and possibly deviations) in the two-step order. -/
theorem measure_supplied' (L : Layer P) (hnd : L.pts.Nodup) (ho : L.order = .twoStep)
    (quad : Quad) (inds : List ℕ) (isArray : Bool) (hi : ∀ i ∈ inds, i < L.pts.length)
    (dev : ℕ → ℝ) (hdev : ∀ i ∈ inds, 0 ≤ dev i)
    (uc : Option (List ℝ))
    (hc : (uc.elim (covsSampler L inds isArray) fun c => CvOps.index (half L.pts.length quad c) inds) =
      some (inds.map dev))
    (m : List ℝ) (f : ℕ → ℝ) (hm : ∀ i, i < L.pts.length → (half L.pts.length quad m)[i]? = some (f i))
    (propagate : Bool) (r : Rnd) :
    ∃ L', measureHom L quad (some inds) isArray (some m) uc propagate r = some L' ∧
      (∀ i (hlt : i < L.pts.length), i ∈ inds →
        ∃ k, inds[k]? = some i ∧ L'.attrs.hom quad L.pts[i] = some (f i + dev i * r.z k)) ∧
      (∀ i (hlt : i < L.pts.length), i ∉ inds → L'.attrs.hom quad L.pts[i] = L.attrs.hom quad L.pts[i]) ∧
      ∀ quad', quad' ≠ quad → L'.attrs.hom quad' = L.attrs.hom quad' := by
  set O := inds.zipIdx.map fun e : ℕ × ℕ => f e.1 + dev e.1 * r.z e.2 with hO
  have hOlen : O.length = inds.length := by rw [hO]; simp
  obtain ⟨L', h1, h2, h3, h4⟩ := record_dup quad O inds.zipIdx L hnd (by
    intro e he
    rw [List.mem_zipIdx_iff_getElem?] at he
    refine ⟨hi _ (List.mem_of_getElem? he), ?_⟩
    rw [hOlen]
    exact (List.getElem?_eq_some_iff.1 he).1)
  have hfst : inds.zipIdx.map (·.1) = inds := by simp
  rw [hfst] at h2 h3
  refine ⟨L', ?_, ?_, h3, h4⟩
  · unfold measureHom
    simp only [Option.getD_some, Option.elim_some, Option.isSome_some, Bool.and_true]
    rw [index_ok _ inds f fun i hii => hm i (hi i hii)]
    simp only [Option.bind_eq_bind, Option.bind_some]
    rw [hc, Option.bind_some, normal_map _ _ _ _ hdev, Option.bind_some]
    have : entangleOutcomes L quad inds O = some O := by unfold entangleOutcomes; simp only [ho]
    rw [this, Option.bind_some]
    exact h1
  · intro i hlt hmem
    obtain ⟨k, hk, hk'⟩ := h2 i hlt hmem
    rw [List.mem_zipIdx_iff_getElem?] at hk
    refine ⟨k, hk, ?_⟩
    rw [hk', hO, List.getElem?_map, List.getElem?_zipIdx, hk]
    simp

/-- Measuring with supplied means in the two-step order. -/
theorem measure_supplied (L : Layer P) (hnd : L.pts.Nodup) (ho : L.order = .twoStep)
    (quad : Quad) (inds : List ℕ) (isArray : Bool) (hi : ∀ i ∈ inds, i < L.pts.length)
    (dev : ℕ → ℝ) (hdev : ∀ i ∈ inds, 0 ≤ dev i)
    (hc : covsSampler L inds isArray = some (inds.map dev))
    (m : List ℝ) (f : ℕ → ℝ) (hm : ∀ i, i < L.pts.length → (half L.pts.length quad m)[i]? = some (f i))
    (propagate : Bool) (r : Rnd) :
    ∃ L', measureHom L quad (some inds) isArray (some m) none propagate r = some L' ∧
      (∀ i (hlt : i < L.pts.length), i ∈ inds →
        ∃ k, inds[k]? = some i ∧ L'.attrs.hom quad L.pts[i] = some (f i + dev i * r.z k)) ∧
      (∀ i (hlt : i < L.pts.length), i ∉ inds → L'.attrs.hom quad L.pts[i] = L.attrs.hom quad L.pts[i]) ∧
      ∀ quad', quad' ≠ quad → L'.attrs.hom quad' = L.attrs.hom quad' :=
  measure_supplied' L hnd ho quad inds isArray hi dev hdev none hc m f hm propagate r

omit [DecidableEq P] in
/-- Means have one entry per quadrature. -/
theorem means_length (L : Layer P) (propagate : Bool) (r : Rnd) {m : List ℝ}
    (h : meansSampler L propagate r = some m) : m.length = 2 * L.pts.length := by
  unfold meansSampler at h
  simp only at h
  cases hord : L.order with
  | initial =>
    rw [hord] at h
    obtain rfl := Option.some.inj h
    exact toList_length _ _
  | twoStep =>
    rw [hord] at h
    simp only [Option.bind_eq_bind, Option.bind_eq_some_iff] at h
    obtain ⟨a, _, h⟩ := h
    cases propagate with
    | true =>
      obtain ⟨o, h1, h2, _⟩ := sczList_ok L.adj a
      simp only [if_true] at h
      rw [h1] at h
      obtain rfl := Option.some.inj h
      exact h2
    | false =>
      simp only [Bool.false_eq_true, if_false] at h
      obtain rfl := Option.some.inj h
      exact toList_length _ _

omit [DecidableEq P] in
theorem covs_length (L : Layer P) (ho : L.order = .twoStep) (inds : List ℕ) (isArray : Bool) {c : List ℝ}
    (h : covsSampler L inds isArray = some c) : c.length = inds.length := by
  unfold covsSampler at h
  simp only [ho] at h
  split_ifs at h
  obtain rfl := Option.some.inj h
  have hlen : ∀ (s : List ℕ) (c : List ℝ), (s.foldl (fun c i => c.set (inds.idxOf i) 0) c).length = c.length := by
    intro s
    induction s with
    | nil => intro c; rfl
    | cons i s ih => intro c; rw [List.foldl_cons, ih, List.length_set]
  rw [hlen, List.length_map]

/-- Without supplied means the two-step order fails unless the lengths happen to agree. -/
theorem measure_two_step_fails (L : Layer P) (ho : L.order = .twoStep) (quad : Quad) (inds : Option (List ℕ))
    (isArray propagate : Bool) (r : Rnd) (h1 : (inds.getD (List.range L.pts.length)).length ≠ 1)
    (h2 : (inds.getD (List.range L.pts.length)).length ≠ 2 * L.pts.length) :
    measureHom L quad inds isArray none none propagate r = none := by
  unfold measureHom
  simp only [Option.elim_none]
  cases hm : meansSampler L propagate r with
  | none => rfl
  | some m =>
    simp only [Option.bind_eq_bind, Option.bind_some]
    cases hc : covsSampler L (inds.getD (List.range L.pts.length)) (isArray && inds.isSome) with
    | none => rfl
    | some c =>
      have hml := means_length L propagate r hm
      have hcl := covs_length L ho _ _ hc
      rw [Option.bind_some]
      have : normal m c r.z = none := by
        unfold normal broadcast
        rw [if_neg (by omega), if_neg (by omega), if_neg (by omega)]
        rfl
      rw [this, Option.bind_none]

end Flamingpy.Noise
