import Verif.Proofs.Peeling

/-! # Peeling in terms of counts -/

namespace Flamingpy.UnionFind

open Flamingpy

variable {N Q : Type} [DecidableEq N] [DecidableEq Q]

theorem peeling_count (ns : List N) (es : List (N × N × Q)) (par : N → Bool) (hfor : IsForest es)
    (hq : (es.map fun e => e.2.2).Nodup) (hns : ∀ e ∈ es, e.1 ∈ ns ∧ e.2.1 ∈ ns)
    (heven : ∀ v ∈ ns, Even {u | u ∈ ns ∧ Conn (es.map fun e => s(e.1, e.2.1)) v u ∧ par u = true}.ncard) :
    (peeling ns es par).1 = [] ∧ (∀ v ∈ ns, (peeling ns es par).2.1 v = false) ∧
      (peeling ns es par).2.2.Nodup ∧ (∀ q ∈ (peeling ns es par).2.2, q ∈ es.map fun e => e.2.2) ∧
      ∀ v ∈ ns, (Odd (es.countP fun e => decide (e.2.2 ∈ (peeling ns es par).2.2 ∧ (e.1 = v ∨ e.2.1 = v))) ↔
        par v = true) := by
  obtain ⟨F, hF, hFb⟩ := tjoin_exists ns.toFinset es (fun e he => by simpa using hns e he) (fun u => bz (par u))
    (fun v hv => compSum_even ns _ par v (heven v (by simpa using hv)))
  obtain ⟨h1, h2, h3, h4, h5⟩ := peeling_spec (par := par) hfor hq hns ⟨F, hF, fun v hv => hFb v (by simpa using hv)⟩
  refine ⟨h1, h2, h3, h4, fun v hv => ?_⟩
  have h6 := h5 v hv
  have key : ∀ R : List Q, bdry (recEdges es R) v =
      ((es.countP fun e => decide (e.2.2 ∈ R ∧ (e.1 = v ∨ e.2.1 = v)) : ℕ) : ZMod 2) := by
    intro R
    have hnl : ∀ e ∈ es, e.1 ≠ e.2.1 := fun e he => hfor.no_loop he
    clear h1 h2 h3 h4 h5 h6 hF hfor hq hns heven
    induction es with
    | nil => rfl
    | cons e es ih =>
      have ih' := ih fun e he => hnl e (by simp [he])
      have he := hnl e (by simp)
      unfold recEdges at ih' ⊢
      rw [List.filter_cons, List.countP_cons]
      by_cases hR : e.2.2 ∈ R
      · rw [if_pos (by simpa using hR), bdry_cons, ih']
        simp only [hR, true_and]
        unfold inc
        by_cases ha : e.1 = v
        · have hb : e.2.1 ≠ v := fun hb => he (ha.trans hb.symm)
          simp [ha, hb, add_comm]
        · by_cases hb : e.2.1 = v
          · simp [ha, hb, add_comm]
          · simp [ha, hb]
      · rw [if_neg (by simpa using hR), ih']
        simp [hR]
  rw [key] at h6
  rw [← ZMod.natCast_eq_one_iff_odd, h6]
  unfold bz
  split_ifs with hp <;> simp [hp]

end Flamingpy.UnionFind
