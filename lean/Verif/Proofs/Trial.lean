import Verif.Model.Correct
import Verif.Props.Verdict
import Verif.Props.Mwpm
import Verif.Props.UnionFind
import Verif.Props.Weights

/-!
# Auxiliary facts about whole decoding runs
-/

namespace Flamingpy.Trial

open Flamingpy Flamingpy.SurfaceCode Flamingpy.UnionFind

/-! ### Nothing to correct -/

theorem mwpm_trivial {code : Code} (h : IsCode code) (bk : Backend) (lib : PathLib) (ml : MatchLib) (sp : SetPop)
    (w : V → ℚ) {bits : V → Bool} (ht : trivialSyndrome code bits) :
    mwpmDecoder bk lib ml (stabGraph bk sp code) w bits = some [] := by
  have ho : oddStabs (stabGraph bk sp code) bits = [] := by
    rw [List.eq_nil_iff_forall_not_mem]
    intro k hk
    rw [mem_oddStabs bk sp h] at hk
    rw [List.getD_eq_getElem _ _ hk.1, ht _ (List.getElem_mem _)] at hk
    exact Bool.false_ne_true hk.2
  have hm : perfectMatching ml ⟨[], []⟩ = [] := by
    rw [List.eq_nil_iff_forall_not_mem]
    intro m hm
    have := (ml.isMatching _).1 m hm
    simp [PyDict.keys] at this
  unfold mwpmDecoder matchGraph
  simp only [ho, if_pos, Option.bind_eq_bind, Option.bind_some, hm]
  rfl

theorem treeParity_false {I : Input} (hI : ∀ k, I.odd k = false) (tree : List SNode) :
    treeParity I (fun _ => false) tree = fun _ => false := by
  unfold treeParity
  extract_lets st
  have hu : ∀ n : SNode, Function.update (fun _ : SNode => false) n false = fun _ => false := fun n =>
    Function.update_eq_self_iff.2 rfl
  have key : st.1 = (fun _ => false) ∧ st.2.1 = 0 := by
    refine List.foldlRecOn (motive := fun st : (SNode → Bool) × ℕ × Option SNode => st.1 = (fun _ => false) ∧ st.2.1 = 0)
      tree _ ⟨rfl, rfl⟩ ?_
    rintro ⟨f, k, b⟩ ⟨h1, h2⟩ n -
    simp only at h1 h2
    subst h1 h2
    cases n <;> simp [hI, hu]
  rw [key.1, key.2]
  simp

theorem trimForest_false {N Q : Type} [DecidableEq N] [DecidableEq Q] (fuel : ℕ) (es : List (N × N × Q)) (leaf : N) :
    (trimForest fuel es leaf (fun _ => false) []).2 = (fun _ => false, []) := by
  induction fuel generalizing es leaf with
  | zero => rfl
  | succ fuel ih =>
    unfold trimForest
    split
    · rfl
    · simp only [Bool.false_eq_true, if_false]
      split_ifs <;> first | rfl | exact ih _ _

theorem peeling_false {N Q : Type} [DecidableEq N] [DecidableEq Q] (ns : List N) (es : List (N × N × Q)) :
    (peeling ns es fun _ => false).2 = (fun _ => false, []) := by
  unfold peeling
  generalize ns.filter _ = l
  induction l generalizing es with
  | nil => rfl
  | cons v l ih =>
    rw [List.foldl_cons]
    simp only
    have := trimForest_false es.length es v
    generalize hr : trimForest es.length es v (fun _ => false) [] = r at this
    obtain ⟨a, b⟩ := r
    simp only at this
    rw [this]
    exact ih a

theorem realE_le {bk : Backend} {sp : SetPop} {code : Code} {w : V → ℚ} {bits : V → Bool} :
    (realE (ufInput (stabGraph bk sp code) w bits).E).length ≤ (stabGraph bk sp code).edges.length := by
  unfold realE ufInput
  refine (List.length_filter_le _ _).trans ?_
  simp only
  rw [keys_weightedEdges, PyDict.keys, List.length_map]

theorem uf_trivial {code : Code} (h : IsCode code) (bk : Backend) (sp : SetPop) (cl : CompLib SNode)
    (sl : SpanLib SNode (Option V)) (io : IterOrder SNode) (w : V → ℚ) {bits : V → Bool} {fuel : ℕ}
    (hf : 2 * (stabGraph bk sp code).edges.length + 1 ≤ fuel) (ht : trivialSyndrome code bits) :
    ufDecoder cl sl io fuel (stabGraph bk sp code) w bits = some [] := by
  have hI : ∀ k, (ufInput (stabGraph bk sp code) w bits).odd k = false := by
    intro k
    rw [odd_code h]
    by_cases hk : k < code.stabs.length
    · rw [List.getD_eq_getElem _ _ hk]; exact ht _ (List.getElem_mem _)
    · rw [List.getD_eq_default _ _ (by omega)]; rfl
  obtain ⟨s, odd, s', rep, dep, e1, e2, H, -⟩ := unionFind_spec cl io (wf_code h bk sp w bits) (compOk_code h bk sp w bits)
    fuel (by have := realE_le (bk := bk) (sp := sp) (code := code) (w := w) (bits := bits); omega)
  obtain ⟨ns, fs, par, e3, -⟩ := decode_spec cl sl (wf_code h bk sp w bits) (labels_code h bk sp w bits) H
  have hp : par = fun _ => false := by
    unfold spanningForest at e3
    rw [Option.bind_eq_bind, Option.bind_eq_some_iff] at e3
    obtain ⟨es, -, e3⟩ := e3
    simp only [Option.pure_def, Option.some.injEq, Prod.mk.injEq] at e3
    rw [← e3.2.2]
    generalize cl.find _ _ = l
    induction l with
    | nil => rfl
    | cons t l ih => rw [List.foldl_cons, treeParity_false hI]; exact ih
  unfold ufDecoder
  simp only [e1, e2, e3, Option.bind_eq_bind, Option.bind_some, hp, peeling_false, Option.pure_def]

/-! ### Floats exist -/

/-- Rounding down to a multiple of `2 ^ -52`. -/
theorem floatLib_exists : Nonempty FloatLib := by
  refine ⟨⟨fun x => (⌊x * 2 ^ 52⌋ : ℚ) / 2 ^ 52, ?_, ?_⟩⟩
  · intro x hx
    have : 0 ≤ ⌊x * 2 ^ 52⌋ := Int.floor_nonneg.2 (by positivity)
    positivity
  · intro n
    have : (n : ℝ) * 2 ^ 52 = ((n * 2 ^ 52 : ℤ) : ℝ) := by push_cast; norm_num
    rw [this, Int.floor_intCast]
    push_cast
    norm_num

end Flamingpy.Trial
