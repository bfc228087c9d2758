import Verif.Model.Noise
import Verif.Proofs.PyDict
import Verif.Props.CvOps
import Mathlib.Tactic.Linarith
import Mathlib.Data.List.GetD

/-! # Lemmas about the noise models -/

namespace Flamingpy.Noise

open Flamingpy

variable {P : Type} [DecidableEq P]

/-! ### IidNoise -/

theorem iidApply_spec (p : ℝ) (u : ℕ → ℝ) (nodes : List P) (hn : nodes.Nodup) (a : Attrs P) (k : ℕ) :
    let a' := (nodes.zipIdx k).foldl (fun a e =>
      ({ a with bit := Function.update a.bit e.1 (some (if u e.2 < p then 1 else 0)) } : Attrs P)) a
    a'.state = a.state ∧ a'.homQ = a.homQ ∧ a'.homP = a.homP ∧ (∀ x, x ∉ nodes → a'.bit x = a.bit x) ∧
    ∀ i (hi : i < nodes.length), a'.bit nodes[i] = some (if u (k + i) < p then 1 else 0) := by
  induction nodes generalizing a k with
  | nil => simp
  | cons v l ih =>
    rw [List.nodup_cons] at hn
    simp only [List.zipIdx_cons, List.foldl_cons]
    have := ih hn.2 { a with bit := Function.update a.bit v (some (if u k < p then 1 else 0)) } (k + 1)
    simp only at this
    obtain ⟨h1, h2, h3, h4, h5⟩ := this
    refine ⟨h1, h2, h3, ?_, ?_⟩
    · intro x hx
      rw [List.mem_cons, not_or] at hx
      rw [h4 x hx.2]
      simp [hx.1]
    · intro i hi
      cases i with
      | zero =>
        simp only [List.getElem_cons_zero, Nat.add_zero]
        rw [h4 v hn.1]
        simp
      | succ i =>
        simp only [List.getElem_cons_succ]
        rw [h5 i (by simpa using hi)]
        congr 4
        omega

/-! ### Labels -/

/-- The layer with other state labels. -/
def Layer.withState (L : Layer P) (st : P → Option String) : Layer P :=
  { L with attrs := { L.attrs with state := st } }

theorem label_fold (psi : String) (l : List ℕ) (L : Layer P) (h : ∀ i ∈ l, i < L.pts.length) :
    l.foldlM (labelOne psi) L =
      some (L.withState fun p => if p ∈ l.filterMap (L.pts[·]?) then some psi else L.attrs.state p) := by
  induction l generalizing L with
  | nil => simp; rfl
  | cons i l ih =>
    have hi := h i (by simp)
    have h1 : labelOne psi L i = some (L.withState (Function.update L.attrs.state L.pts[i] (some psi))) := by
      unfold labelOne
      rw [List.getElem?_eq_getElem hi]
      rfl
    rw [List.foldlM_cons, h1]
    refine Eq.trans (ih (L.withState (Function.update L.attrs.state L.pts[i] (some psi)))
      fun j hj => h j (by simp [hj])) ?_
    congr 1
    unfold Layer.withState
    simp only
    congr 2
    funext p
    rw [List.filterMap_cons, List.getElem?_eq_getElem hi]
    simp only [List.mem_cons]
    by_cases hp : p ∈ l.filterMap (L.pts[·]?)
    · simp [hp]
    · by_cases hp' : p = L.pts[i]
      · subst hp'
        simp
      · simp [hp, hp']

theorem mem_filterMap_pts {L : Layer P} (hnd : L.pts.Nodup) {l : List ℕ} {i : ℕ} (hi : i < L.pts.length) :
    L.pts[i] ∈ l.filterMap (L.pts[·]?) ↔ i ∈ l := by
  rw [List.mem_filterMap]
  constructor
  · rintro ⟨j, hj, he⟩
    rw [List.getElem?_eq_some_iff] at he
    obtain ⟨hj', he⟩ := he
    rw [hnd.getElem_inj_iff] at he
    rwa [← he]
  · intro h
    exact ⟨i, h, List.getElem?_eq_getElem hi⟩

/-- Labels after `_apply_state_labels` for the two states. -/
theorem applyLabels_two (L : Layer P) (ps gs : List ℕ) (hs : L.states = [("p", ps), ("GKP", gs)])
    (hp : ∀ i ∈ ps, i < L.pts.length) (hg : ∀ i ∈ gs, i < L.pts.length) :
    applyLabels L = some (L.withState fun p =>
      if p ∈ gs.filterMap (L.pts[·]?) then some "GKP"
      else if p ∈ ps.filterMap (L.pts[·]?) then some "p" else L.attrs.state p) := by
  unfold applyLabels
  rw [hs, List.foldlM_cons, label_fold _ _ _ hp]
  rw [Option.bind_eq_bind, Option.bind_some, List.foldlM_cons,
    label_fold _ _ (L.withState fun p => if p ∈ ps.filterMap (L.pts[·]?) then some "p" else L.attrs.state p) hg]
  rfl

/-- The current index lists. -/
def Two (L : Layer P) (ps gs : List ℕ) : Prop := L.states = [("p", ps), ("GKP", gs)]

/-- The p indices used by the next call. -/
noncomputable def nextP (L : Layer P) (draw ps : List ℕ) : List ℕ :=
  open Classical in
  if swaps L then (if L.pSwap = some 1 then List.range L.pts.length else draw) else ps

/-- The complement of lists of indices. -/
def compl (n : ℕ) (l : List ℕ) : List ℕ := (List.range n).filter fun i => decide (i ∉ l)

theorem mem_compl {n : ℕ} {l : List ℕ} {i : ℕ} : i ∈ compl n l ↔ i < n ∧ i ∉ l := by
  unfold compl
  rw [List.mem_filter, List.mem_range, decide_eq_true_eq]

/-- The layer with other states. -/
def Layer.withStates (L : Layer P) (s : List (String × List ℕ)) : Layer P := { L with states := s }

/-- The effect of one `populate_states` on a layer with states `p` and (after the first call) `GKP`. -/
theorem populate_spec (L : Layer P) (ps gs : List ℕ) (draw : List ℕ)
    (hs : L.states = [("p", ps)] ∧ gs = [] ∨ L.states = [("p", ps), ("GKP", gs)])
    (hp : ∀ i ∈ nextP L draw ps, i < L.pts.length) :
    populate L draw = some ((L.withStates [("p", nextP L draw ps),
        ("GKP", compl L.pts.length (nextP L draw ps ++ gs))]).withState fun p =>
      if p ∈ (compl L.pts.length (nextP L draw ps ++ gs)).filterMap (L.pts[·]?) then some "GKP"
      else if p ∈ (nextP L draw ps).filterMap (L.pts[·]?) then some "p" else L.attrs.state p) := by
  have key : ∀ L' : Layer P, L'.pts.length = L.pts.length →
      (L'.states = [("p", nextP L draw ps)] ∧ gs = [] ∨ L'.states = [("p", nextP L draw ps), ("GKP", gs)]) →
      (generateGkp L').states = [("p", nextP L draw ps), ("GKP", compl L.pts.length (nextP L draw ps ++ gs))] := by
    intro L' hl h
    unfold generateGkp
    simp only
    rcases h with ⟨h, rfl⟩ | h
    · rw [h]
      simp [PyDict.set, PyDict.values, compl, hl]
    · rw [h]
      simp [PyDict.set, PyDict.values, compl, hl]
  have hlt : ∀ i ∈ compl L.pts.length (nextP L draw ps ++ gs), i < L.pts.length := fun i hi => (mem_compl.1 hi).1
  unfold populate
  by_cases hsw : swaps L
  · have hg : (generateSqueezed L draw).states = [("p", nextP L draw ps)] ∧ gs = [] ∨
        (generateSqueezed L draw).states = [("p", nextP L draw ps), ("GKP", gs)] := by
      unfold generateSqueezed nextP
      simp only [hsw, if_true]
      rcases hs with ⟨h, rfl⟩ | h
      · left; rw [h]; simp [PyDict.set]
      · right; rw [h]; simp [PyDict.set]
    simp only [if_pos hsw]
    rw [applyLabels_two _ _ _ (key (generateSqueezed L draw) rfl hg) hp hlt]
    have := key (generateSqueezed L draw) rfl hg
    unfold generateGkp at this ⊢
    simp only at this ⊢
    rw [this]
    rfl
  · have hn : nextP L draw ps = ps := by unfold nextP; rw [if_neg hsw]
    have hg : L.states = [("p", nextP L draw ps)] ∧ gs = [] ∨
        L.states = [("p", nextP L draw ps), ("GKP", gs)] := by rw [hn]; exact hs
    simp only [if_neg hsw]
    rw [applyLabels_two _ _ _ (key _ rfl hg) hp hlt]
    have := key _ rfl hg
    unfold generateGkp at this ⊢
    simp only at this ⊢
    rw [this]
    rfl

end Flamingpy.Noise
