import Verif.Proofs.StabEdges
import Verif.Model.Mwpm
import Mathlib.Algebra.BigOperators.Group.List.Lemmas
import Mathlib.Algebra.Order.BigOperators.Group.List
import Mathlib.Data.ZMod.Basic

/-!
# Toggled paths in the stabilizer graph
-/

namespace Flamingpy.SurfaceCode

open Flamingpy

/-! ### Toggling -/

theorem toggle_nodup {s : List (Option V)} (hs : s.Nodup) (x : Option V) : (toggle s x).Nodup := by
  unfold toggle
  split
  · exact hs.erase x
  · rename_i hx
    rw [List.nodup_append]
    refine ⟨hs, by simp, ?_⟩
    intro a ha b hb
    rw [List.mem_singleton] at hb
    subst hb
    rintro rfl
    exact hx ha

theorem toggle_sum2 (f : Option V → ZMod 2) (s : List (Option V)) (x : Option V) :
    ((toggle s x).map f).sum = (s.map f).sum + f x := by
  unfold toggle
  split
  · rename_i hx
    have := ((List.perm_cons_erase hx).map f).sum_eq
    rw [this, List.map_cons, List.sum_cons]
    generalize f x = a
    generalize ((s.erase x).map f).sum = b
    revert a b
    decide
  · simp

theorem toggle_sum_le (f : Option V → ℚ) {s : List (Option V)} {x : Option V} (hx : 0 ≤ f x) :
    ((toggle s x).map f).sum ≤ (s.map f).sum + f x := by
  unfold toggle
  split
  · rename_i h
    have := ((List.perm_cons_erase h).map f).sum_eq
    rw [this, List.map_cons, List.sum_cons]
    linarith
  · simp

theorem toggle_mem {s : List (Option V)} {x y : Option V} (h : y ∈ toggle s x) : y ∈ s ∨ y = x := by
  unfold toggle at h
  split at h
  · exact Or.inl (List.mem_of_mem_erase h)
  · simpa using h

theorem toggles_nodup (l : List (Option V)) {s : List (Option V)} (hs : s.Nodup) : (l.foldl toggle s).Nodup := by
  induction l generalizing s with
  | nil => exact hs
  | cons x l ih => exact ih (toggle_nodup hs x)

theorem toggles_sum2 (f : Option V → ZMod 2) (l s : List (Option V)) :
    ((l.foldl toggle s).map f).sum = (s.map f).sum + (l.map f).sum := by
  induction l generalizing s with
  | nil => simp
  | cons x l ih => rw [List.foldl_cons, ih, toggle_sum2, List.map_cons, List.sum_cons, add_assoc]

theorem toggles_sum_le (f : Option V → ℚ) (l s : List (Option V)) (h : ∀ x ∈ l, 0 ≤ f x) :
    ((l.foldl toggle s).map f).sum ≤ (s.map f).sum + (l.map f).sum := by
  induction l generalizing s with
  | nil => simp
  | cons x l ih =>
    rw [List.foldl_cons, List.map_cons, List.sum_cons]
    have h1 := ih (toggle s x) fun y hy => h y (by simp [hy])
    have h2 := toggle_sum_le f (s := s) (h x (by simp))
    linarith

theorem toggles_mem (l : List (Option V)) {s : List (Option V)} {y : Option V} (h : y ∈ l.foldl toggle s) :
    y ∈ s ∨ y ∈ l := by
  induction l generalizing s with
  | nil => exact Or.inl h
  | cons x l ih =>
    rcases ih h with h | h
    · rcases toggle_mem h with h | h
      · exact Or.inl h
      · exact Or.inr (by simp [h])
    · exact Or.inr (by simp [h])

/-! ### The qubits along a walk -/

/-- The common vertices along a walk. -/
def pathCvs (E : List (Sym2 SNode × Option V)) : List SNode → List (Option V)
  | a :: b :: l => (PyDict.get? E s(a, b)).getD none :: pathCvs E (b :: l)
  | _ => []

theorem togglePath_eq (SG : StabGraph) (p : List SNode)
    (hp : p.IsChain fun a b => s(a, b) ∈ PyDict.keys SG.edges) (s : List (Option V)) :
    togglePath SG p s = some ((pathCvs SG.edges p).foldl toggle s) := by
  induction p generalizing s with
  | nil => rfl
  | cons a p ih =>
    cases p with
    | nil => rfl
    | cons b p =>
      rw [List.isChain_cons_cons] at hp
      have := (PyDict.get?_isSome_iff SG.edges s(a, b)).2 hp.1
      obtain ⟨cv, hcv⟩ := Option.isSome_iff_exists.1 this
      simp only [togglePath, sgEdgeData, hcv, pathCvs, Option.getD_some, List.foldl_cons]
      exact ih hp.2 _

theorem pathCvs_mem {E : List (Sym2 SNode × Option V)} {p : List SNode}
    (hp : p.IsChain fun a b => s(a, b) ∈ PyDict.keys E) {cv : Option V} (h : cv ∈ pathCvs E p) :
    ∃ e, (e, cv) ∈ E := by
  induction p with
  | nil => simp [pathCvs] at h
  | cons a p ih =>
    cases p with
    | nil => simp [pathCvs] at h
    | cons b p =>
      rw [List.isChain_cons_cons] at hp
      obtain ⟨cv', hcv⟩ := Option.isSome_iff_exists.1 ((PyDict.get?_isSome_iff E s(a, b)).2 hp.1)
      simp only [pathCvs, hcv, Option.getD_some, List.mem_cons] at h
      rcases h with h | h
      · exact ⟨_, h ▸ PyDict.get?_mem hcv⟩
      · exact ih hp.2 h

/-- A function of the edges that is a difference of end points telescopes. -/
theorem pathCvs_sum {E : List (Sym2 SNode × Option V)} {f : Option V → ZMod 2} {g : SNode → ZMod 2}
    (hfg : ∀ a b cv, (s(a, b), cv) ∈ E → f cv = g a + g b) {p : List SNode}
    (hp : p.IsChain fun a b => s(a, b) ∈ PyDict.keys E) {a c : SNode} (ha : p.head? = some a)
    (hc : p.getLast? = some c) : ((pathCvs E p).map f).sum = g a + g c := by
  induction p generalizing a with
  | nil => cases ha
  | cons x p ih =>
    obtain rfl : x = a := Option.some.inj ha
    cases p with
    | nil =>
      obtain rfl : x = c := by simpa using hc
      simp only [pathCvs, List.map_nil, List.sum_nil]
      generalize g x = a; revert a; decide
    | cons b p =>
      rw [List.isChain_cons_cons] at hp
      obtain ⟨cv, hcv⟩ := Option.isSome_iff_exists.1 ((PyDict.get?_isSome_iff E s(x, b)).2 hp.1)
      simp only [pathCvs, hcv, Option.getD_some, List.map_cons, List.sum_cons]
      rw [ih hp.2 rfl (by rwa [List.getLast?_cons_cons] at hc), hfg _ _ _ (PyDict.get?_mem hcv)]
      generalize g x = a; generalize g b = b'; generalize g c = c'
      revert a b' c'; decide

/-- Weight of a common vertex. -/
def cvWeight (w : V → ℚ) : Option V → ℚ
  | some v => w v
  | none => 0

theorem get?_weightedEdges (G : StabGraph) (w : V → ℚ) (e : Sym2 SNode) :
    PyDict.get? (weightedEdges G w) e = (PyDict.get? G.edges e).map (cvWeight w) := by
  unfold weightedEdges PyDict.get?
  rw [List.find?_map, Option.map_map, Option.map_map]
  congr 1

theorem get?_withoutConnectors {E : List (Sym2 SNode × ℚ)} {e : Sym2 SNode}
    (he : e ∈ PyDict.keys (withoutConnectors E)) : PyDict.get? (withoutConnectors E) e = PyDict.get? E e := by
  obtain ⟨_, h1⟩ := mem_keys_withoutConnectors.1 he
  clear he
  unfold withoutConnectors PyDict.get?
  rw [List.find?_filter]
  congr 2
  funext x
  by_cases hx : x.1 = e
  · simp [hx, h1]
  · simp [hx]

theorem chain_withoutConnectors {E : List (Sym2 SNode × ℚ)} {p : List SNode}
    (hp : p.IsChain fun a b => s(a, b) ∈ PyDict.keys (withoutConnectors E)) :
    p.IsChain fun a b => s(a, b) ∈ PyDict.keys E :=
  hp.imp fun _ _ h => (mem_keys_withoutConnectors.1 h).1

theorem walkSum_withoutConnectors (f : ℚ → ℚ) {E : List (Sym2 SNode × ℚ)} {p : List SNode}
    (hp : p.IsChain fun a b => s(a, b) ∈ PyDict.keys (withoutConnectors E)) :
    walkSum f (withoutConnectors E) p = walkSum f E p := by
  induction p with
  | nil => rfl
  | cons a p ih =>
    cases p with
    | nil => rfl
    | cons b p =>
      rw [List.isChain_cons_cons] at hp
      simp only [walkSum]
      rw [ih hp.2, get?_withoutConnectors hp.1]

theorem walkSum_cvs (f : ℚ → ℚ) (G : StabGraph) (w : V → ℚ) (hf : f 0 = 0) (p : List SNode) :
    walkSum f (weightedEdges G w) p = ((pathCvs G.edges p).map fun c => f (cvWeight w c)).sum := by
  induction p with
  | nil => rfl
  | cons a p ih =>
    cases p with
    | nil => rfl
    | cons b p =>
      simp only [walkSum, pathCvs, List.map_cons, List.sum_cons]
      rw [ih, get?_weightedEdges]
      cases PyDict.get? G.edges s(a, b) <;> simp [cvWeight, hf]

end Flamingpy.SurfaceCode
