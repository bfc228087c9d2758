import Verif.Proofs.MacroPerm

/-! # Body indices and reduced labels -/

namespace Flamingpy.Noise

open Flamingpy

variable {P : Type} [DecidableEq P]

/-- Change the body indices. -/
def Macro.withBody (M : Macro P) (f : P → Option ℕ) : Macro P := { M with bodyIndex := f }

/-- Change the reduced states. -/
def Macro.withRed (M : Macro P) (f : P → Option String) : Macro P := { M with redState := f }

theorem labelBody_fold (l : List (ℕ × ℕ)) (M : Macro P) (hnd : M.layer.pts.Nodup) (hl : (l.map (·.1)).Nodup)
    (h : ∀ e ∈ l, e.1 < M.layer.pts.length) :
    ∃ f, l.foldlM labelBody M = some (M.withBody f) ∧
      (∀ e ∈ l, ∀ p, M.layer.pts[e.1]? = some p → f p = some (e.2 % 4 + 1)) ∧
      ∀ p, (∀ e ∈ l, M.layer.pts[e.1]? ≠ some p) → f p = M.bodyIndex p := by
  induction l generalizing M with
  | nil => exact ⟨M.bodyIndex, rfl, by simp, by simp⟩
  | cons e l ih =>
    rw [List.map_cons, List.nodup_cons] at hl
    have he := h e (by simp)
    have h1 : labelBody M e = some (M.withBody (Function.update M.bodyIndex M.layer.pts[e.1] (some (e.2 % 4 + 1)))) := by
      unfold labelBody
      rw [List.getElem?_eq_getElem he]
      rfl
    obtain ⟨f, f1, f2, f3⟩ := ih (M.withBody (Function.update M.bodyIndex M.layer.pts[e.1] (some (e.2 % 4 + 1)))) hnd hl.2
      fun e' he' => h e' (by simp [he'])
    refine ⟨f, ?_, ?_, ?_⟩
    · rw [List.foldlM_cons, h1]
      exact f1
    · intro e' he' p hp
      rcases List.mem_cons.1 he' with heq | hm
      · subst heq
        rw [f3 p]
        · rw [List.getElem?_eq_getElem he] at hp
          obtain rfl := Option.some.inj hp
          exact Function.update_self ..
        · intro e'' he'' hc
          have hlt := h e'' (by simp [he''])
          have hc' : M.layer.pts[e''.1]? = some p := hc
          rw [List.getElem?_eq_getElem hlt] at hc'
          rw [List.getElem?_eq_getElem he] at hp
          have := hnd.getElem_inj_iff.1 (Option.some.inj (hc'.trans hp.symm))
          exact hl.1 (this ▸ List.mem_map_of_mem (f := (·.1)) he'')
      · exact f2 e' hm p hp
    · intro p hp
      rw [f3 p fun e' he' => hp e' (by simp [he'])]
      apply Function.update_of_ne
      intro hc
      exact hp e (by simp) (by rw [List.getElem?_eq_getElem he, hc])

theorem labelReduced_fold (l : List ℕ) (M : Macro P) (lab : ℕ → String)
    (h : ∀ i ∈ l, ∃ p, M.layer.pts[i]? = some p ∧ M.layer.attrs.state p = some (lab i) ∧ M.centre p ∈ M.redNodes)
    (hinj : ∀ i ∈ l, ∀ j ∈ l, ∀ p q, M.layer.pts[i]? = some p → M.layer.pts[j]? = some q → M.centre p = M.centre q → i = j) :
    ∃ f, l.foldlM labelReduced M = some (M.withRed f) ∧
      ∀ i ∈ l, ∀ p, M.layer.pts[i]? = some p → f (M.centre p) = some (lab i) := by
  suffices H : ∃ f, l.foldlM labelReduced M = some (M.withRed f) ∧
      (∀ i ∈ l, ∀ p, M.layer.pts[i]? = some p → f (M.centre p) = some (lab i)) ∧
      ∀ c, (∀ i ∈ l, ∀ p, M.layer.pts[i]? = some p → M.centre p ≠ c) → f c = M.redState c by
    obtain ⟨f, h1, h2, _⟩ := H
    exact ⟨f, h1, h2⟩
  induction l generalizing M with
  | nil => exact ⟨M.redState, rfl, by simp, by simp⟩
  | cons i l ih =>
    obtain ⟨p, hp, hs, hc⟩ := h i (by simp)
    have h1 : labelReduced M i = some (M.withRed (Function.update M.redState (M.centre p) (some (lab i)))) := by
      unfold labelReduced
      simp only [hp, hs, Option.bind_eq_bind, Option.bind_some]
      rw [if_pos hc]
      rfl
    obtain ⟨f, f1, f2, f3⟩ := ih (M.withRed (Function.update M.redState (M.centre p) (some (lab i))))
      (fun j hj => h j (by simp [hj])) fun j hj k hk => hinj j (by simp [hj]) k (by simp [hk])
    refine ⟨f, ?_, ?_, ?_⟩
    · rw [List.foldlM_cons, h1]
      exact f1
    · intro j hj q hq
      by_cases hm : j ∈ l
      · exact f2 j hm q hq
      · obtain rfl : j = i := by
          rcases List.mem_cons.1 hj with h | h
          · exact h
          · exact absurd h hm
        obtain rfl : p = q := Option.some.inj (hp.symm.trans hq)
        rw [f3]
        · exact Function.update_self ..
        · intro k hk q' hq' hcc
          have := hinj k (by simp [hk]) j (by simp) q' p hq' hp hcc
          exact hm (this ▸ hk)
    · intro c hcn
      rw [f3 c fun j hj => hcn j (by simp [hj])]
      exact Function.update_of_ne (fun hcc => hcn i (by simp) p hp hcc.symm) ..

end Flamingpy.Noise
