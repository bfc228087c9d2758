import Verif.Proofs.NoiseSyndrome
import Mathlib.Data.ZMod.Basic
import Mathlib.Algebra.Ring.Int.Parity
import Mathlib.Tactic.Ring

/-! # Parity of noiseless outcomes -/

namespace Flamingpy.Noise

open Flamingpy Flamingpy.SurfaceCode

/-- Weight of the edge between two points, 0 without an edge. -/
def edgeWeight (code : Code) (x y : V) : ℤ := ((PyDict.get? code.graph.edges s(x, y)).map (·.1)).getD 0

theorem b2z_odd (n : ℤ) : b2z (decide (Odd n)) = (n : ZMod 2) := by
  rcases Int.even_or_odd n with h | h
  · rw [(ZMod.intCast_zmod_eq_zero_iff_dvd n 2).2 (by exact_mod_cast h.two_dvd)]
    simp [b2z, h]
  · obtain ⟨k, rfl⟩ := h
    have : (2 : ZMod 2) = 0 := by decide
    simp [b2z, this]

theorem sum_filter_ite {α : Type} (l : List α) (p : α → Bool) (f : α → ZMod 2) :
    ((l.filter p).map f).sum = (l.map fun x => if p x then f x else 0).sum := by
  induction l with
  | nil => rfl
  | cons a l ih =>
    rw [List.filter_cons]
    by_cases h : p a
    · simp [h, ih]
    · simp [h, ih]

/-- Modulo two, the integer picked up from the neighbours is the parity of their odd values. -/
theorem neighbour_parity (code : Code) (hw : ∀ x y w, PyDict.get? code.graph.edges s(x, y) = some w → Odd w.1)
    {pts : List V} (hp : pts.Perm (PyDict.keys code.graph.nodes)) (hnd : pts.Nodup) (n : ℕ → ℤ) (x : V) :
    decide (Odd (∑ j : Fin pts.length, edgeWeight code x pts[j.val] * n j)) =
      parity (fun y => decide (Odd (n (pts.idxOf y)))) (neighbors code x) := by
  rw [← b2z_inj, b2z_odd, parity_eq, b2z_foldl]
  have h0 : b2z false = 0 := rfl
  rw [h0, zero_add]
  unfold neighbors
  rw [sum_filter_ite, ← (hp.map _).sum_eq, ← Fin.sum_univ_fun_getElem]
  push_cast
  apply Finset.sum_congr rfl
  intro j _
  have hidx : pts.idxOf pts[j.val] = j.val := hnd.idxOf_getElem _ _
  rw [b2z_odd, hidx]
  by_cases he : s(x, pts[j.val]) ∈ PyDict.keys code.graph.edges
  · rw [if_pos (by simpa using he)]
    cases hg : PyDict.get? code.graph.edges s(x, pts[j.val]) with
    | none => exact absurd he ((PyDict.get?_eq_none _ _).1 hg)
    | some w =>
      have hodd := hw _ _ _ hg
      have : ((edgeWeight code x pts[j.val] : ℤ) : ZMod 2) = 1 := by
        unfold edgeWeight
        rw [hg]
        simp only [Option.map_some, Option.getD_some]
        rw [← b2z_odd]
        simp [hodd, b2z]
      rw [this, one_mul]
  · rw [if_neg (by simpa using he)]
    have : edgeWeight code x pts[j.val] = 0 := by
      unfold edgeWeight
      rw [(PyDict.get?_eq_none _ _).2 he]
      rfl
    rw [this]
    simp

/-- The weights of the code graph come from the polarity. -/
theorem weight_from {o : SetOrder} {ec : Ec} {b : Boundaries} {dims : Fin 3 → ℕ} {pol : Option (V → V → ℤ)}
    {code : Code} (hd : ∀ i, 2 ≤ dims i) (hc : surfaceCode o ec b dims pol = some code) {x y : V} {w : ℤ × Bool}
    (hw : PyDict.get? code.graph.edges s(x, y) = some w) : ∃ u v, w.1 = weightOf pol u v := by
  have hg := goodDims_of_two hd (boundsOf ec b)
  have hv : ∀ x, x ∈ o.ord 0 (denested dims (boundsOf ec b)) ↔ x ∈ denested dims (boundsOf ec b) :=
    fun x => (o.perm 0 _).mem_iff
  have hgr : code.graph = rhgGraph dims (boundsOf ec b) pol (o.ord 0 (denested dims (boundsOf ec b))) := by
    unfold surfaceCode at hc
    simp only at hc
    split_ifs at hc
    rw [← Option.some.inj hc]
  rw [hgr] at hw
  obtain ⟨⟨u, v, p', _, hop⟩, _⟩ := (rhgGraph_built dims (boundsOf ec b) pol _).edgeVal _ w.1 w.2 hw
  rw [ops_edge hg pol hv] at hop
  exact ⟨u, v, hop.2.2.1⟩

theorem unit_weights {o : SetOrder} {ec : Ec} {b : Boundaries} {dims : Fin 3 → ℕ} {pol : Option (V → V → ℤ)}
    {code : Code} (hd : ∀ i, 2 ≤ dims i) (hc : surfaceCode o ec b dims pol = some code)
    (hpol : ∀ u v, weightOf pol u v = 1 ∨ weightOf pol u v = -1) :
    ∀ x y w, PyDict.get? code.graph.edges s(x, y) = some w → Odd w.1 := by
  intro x y w hw
  obtain ⟨u, v, h⟩ := weight_from hd hc hw
  rw [h]
  rcases hpol u v with h | h <;> rw [h] <;> decide

end Flamingpy.Noise
