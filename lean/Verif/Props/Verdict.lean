import Verif.Props.SurfaceCode
import Verif.Proofs.Homotopy

/-!
# C57: the verdict is exact

A bit pattern without syndrome is accepted if and only if it could be the outcome of a noiseless
measurement: it is the sum of the neighbourhoods of some set of nodes.
-/

namespace Flamingpy.SurfaceCode

open Flamingpy

theorem checked_axis_conv (ec : Ec) (b : Boundaries) (i : Fin 3)
    (h1 : boundsOf ec b i = ec.toBd ∨ boundsOf ec b i = .periodic)
    (h2 : ∀ j, j ≠ i → boundsOf ec b j ≠ ec.toBd) : i ∈ planesToCheck ec b := by
  rw [boundsOf_table] at h1 h2
  revert h1 h2
  cases ec <;> cases b <;> revert i <;> decide

theorem check_zero {code : Code} (h : IsCode code) (bits : V → Bool) (hz : ∀ x ∈ code.syndrome, bits x = false)
    (sanity : Bool) : checkCorrection code bits sanity = some true := by
  obtain ⟨hok, hd⟩ := h.ok
  rw [check_eq hd]
  congr 1
  rw [List.all_eq_true]
  intro i _
  rw [Bool.not_eq_true', ← b2z_eq_zero, hok.sheet]
  unfold plane
  apply Finset.sum_eq_zero
  intro x hx
  rw [b2z_eq_zero]
  exact hz x ((hok.syndrome x).2 (Finset.mem_filter.1 hx).1)

theorem check_nbhds {code : Code} (h : IsCode code) (vals : V → Bool) (l : List V)
    (hl : ∀ q ∈ l, q ∈ PyDict.keys code.graph.nodes) (bits : V → Bool)
    (hb : ∀ x ∈ code.syndrome,
      bits x = parity vals (l.filter fun q => decide (s(x, q) ∈ PyDict.keys code.graph.edges)))
    (sanity : Bool) : checkCorrection code bits sanity = some true := by
  induction l generalizing bits with
  | nil => exact check_zero h bits (fun x hx => by rw [hb x hx]; rfl) sanity
  | cons q l ih =>
    have ih' := ih (fun q hq => hl q (by simp [hq])) _ (fun _ _ => rfl)
    by_cases hv : vals q
    · rw [← ih']
      refine (C32_trivial_error h (hl q (by simp)) _ bits ?_).2.2 sanity
      intro x hx
      rw [hb x hx, List.filter_cons]
      by_cases hr : s(q, x) ∈ PyDict.keys code.graph.edges
      · have hr' : s(x, q) ∈ PyDict.keys code.graph.edges := by rwa [Sym2.eq_swap]
        rw [if_pos (by simpa using hr'), parity_eq, List.foldl_cons, ← b2z_inj, b2z_foldl, b2z_xor, b2z_xor, parity_eq,
          b2z_foldl]
        simp [hv, hr, b2z, add_comm]
      · have hr' : ¬ s(x, q) ∈ PyDict.keys code.graph.edges := by rwa [Sym2.eq_swap]
        rw [if_neg (by simpa using hr')]
        simp [hr]
    · refine ih (fun q hq => hl q (by simp [hq])) bits ?_
      intro x hx
      rw [hb x hx, List.filter_cons]
      split_ifs
      · rw [parity_eq, List.foldl_cons, ← b2z_inj, b2z_foldl, b2z_xor, parity_eq, b2z_foldl]
        simp [hv, b2z]
      · rfl

/-- The neighbours of a qubit. -/
theorem neighbors_eq {code : Code} (hok : CodeOk code) {x : V} (hx : x ∈ code.syndrome) {i : Fin 3}
    (hi : FaceAt code.ec x i) (y : V) :
    y ∈ neighbors code x ↔
      y ∈ (Finset.univ.erase i).biUnion (nbrsAlong code.dims (boundsOf code.ec code.boundaries) x) := by
  obtain ⟨hb, _⟩ := mem_qubits.1 ((hok.syndrome x).1 hx)
  have hsp : Special x i := by
    unfold Special
    unfold FaceAt at hi
    cases hec : code.ec <;> rw [hec] at hi <;> simp only [facePar, cellPar] at hi
    · exact Or.inl ⟨by omega, hi.2⟩
    · exact Or.inr ⟨by omega, hi.2⟩
  unfold neighbors
  rw [List.mem_filter, decide_eq_true_eq, hok.graphEdges, hok.graphNodes, Finset.mem_biUnion]
  have := nbr_iff (bds := boundsOf code.ec code.boundaries) (dims := code.dims) hb hsp y
  unfold nbrsAlong
  simp only [Finset.mem_erase, Finset.mem_univ, and_true, Finset.mem_image]
  constructor
  · rintro ⟨h1, _, h2, h3⟩
    obtain ⟨j, hj, b, hb, rfl⟩ := this.1 ⟨h2, h3⟩
    exact ⟨j, hj, b, hb, rfl⟩
  · rintro ⟨j, hj, b, hb, rfl⟩
    obtain ⟨h2, h3⟩ := this.2 ⟨j, hj, b, hb, rfl⟩
    exact ⟨h2, qubit_isNode ((hok.syndrome x).1 hx), h2, h3⟩

/-- C57.  The outcomes of the syndrome qubits satisfy every stabilizer and are accepted by the check if
and only if they are noiseless outcomes: there are values on the nodes such that each outcome is the
parity of the values of the neighbouring nodes. -/
theorem C57_verdict {code : Code} (h : IsCode code) (bits : V → Bool) (sanity : Bool) :
    (trivialSyndrome code bits ∧ checkCorrection code bits sanity = some true) ↔
      ∃ vals : V → Bool, ∀ x ∈ code.syndrome, bits x = parity vals (neighbors code x) := by
  obtain ⟨hok, hd⟩ := h.ok
  constructor
  · rintro ⟨ht, hv⟩
    obtain ⟨g, hg⟩ := exact_of_planes (ec := code.ec) (bds := boundsOf code.ec code.boundaries) hd
      (fun x => b2z (bits x)) ((hok.trivial_iff bits).1 ht) (by
        intro i h1 h2
        have hi := checked_axis_conv _ _ i h1 h2
        rw [check_eq hd, Option.some.injEq, List.all_eq_true] at hv
        have := hv i hi
        rw [Bool.not_eq_true', ← b2z_eq_zero, hok.sheet] at this
        exact this)
    refine ⟨fun y => decide (g y = 1), ?_⟩
    intro x hx
    obtain ⟨hb, i, hi⟩ := mem_qubits.1 ((hok.syndrome x).1 hx)
    have hnd : (neighbors code x).Nodup := hok.nodesNd.filter _
    rw [← b2z_inj, parity_eq, b2z_foldl_finset hnd (neighbors_eq hok hx hi), hg x i hb hi]
    apply Finset.sum_congr rfl
    intro y _
    generalize g y = z
    revert z; decide
  · rintro ⟨vals, hvals⟩
    refine ⟨C26_noiseless h vals bits hvals, ?_⟩
    exact check_nbhds h vals (PyDict.keys code.graph.nodes) (fun _ hq => hq) bits hvals sanity

/-- Consequence for `correct`: if the decoder's recovery leaves no syndrome, the verdict is `True` exactly
when error and recovery together are a noiseless pattern, i.e. no logical error has happened. -/
theorem C57_correct {code : Code} (h : IsCode code) (decoder : (V → Bool) → Option (List (Option V)))
    {sanity ok : Bool} {bits bits' : V → Bool} (hr : correct code decoder sanity bits = some (bits', ok))
    (ht : trivialSyndrome code bits') :
    ok = true ↔ ∃ vals : V → Bool, ∀ x ∈ code.syndrome, bits' x = parity vals (neighbors code x) := by
  rw [← C57_verdict h bits' sanity]
  unfold correct at hr
  simp only [Option.bind_eq_bind, Option.bind_eq_some_iff, Option.pure_def, Option.some.injEq, Prod.mk.injEq] at hr
  obtain ⟨qs, _, b, _, k, hk, rfl, rfl⟩ := hr
  rw [hk]
  simp [ht]

-- a rejected pattern is not a sum of neighbourhoods: both sides of the equivalence can fail
example {code : Code} (h : IsCode code) (hb : code.boundaries = .periodic) :
    ∃ bits, trivialSyndrome code bits ∧
      ¬ ∃ vals : V → Bool, ∀ x ∈ code.syndrome, bits x = parity vals (neighbors code x) := by
  obtain ⟨bits, h1, h2, _⟩ := C33_exists h (i := 2) (by rw [hb]; simp [planesToCheck])
  refine ⟨bits, h1, fun hc => ?_⟩
  have := ((C57_verdict h bits true).2 hc).2
  rw [h2 true] at this
  exact absurd this (by decide)

-- and both can hold, for the pattern of any single node
example {code : Code} (h : IsCode code) (q : V) :
    trivialSyndrome code (fun x => parity (fun y => decide (y = q)) (neighbors code x)) ∧
      checkCorrection code (fun x => parity (fun y => decide (y = q)) (neighbors code x)) true = some true :=
  (C57_verdict h _ true).2 ⟨_, fun _ _ => rfl⟩

end Flamingpy.SurfaceCode
