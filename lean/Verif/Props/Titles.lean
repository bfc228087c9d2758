import Verif.Model.Viz
import Verif.Proofs.PyDict

/-!
# C84: titles, hover texts, colours and messages
-/

namespace Flamingpy.Viz

open Flamingpy

/-! ### Titles -/

/-- Specification, from the documentation of `_get_title`: a string is the title, `True` asks for a title from the label, and anything else means no title.
`none` is "no title". -/
def docTitle (title : Title) (label : Label) : Option String :=
  match title with
  | .str s => if s = "" then none else some s
  | .bool true => match label with
    | .str l => some ((PyDict.get? titleDict l).getD l)
    | .list [l] => some ((PyDict.get? titleDict l).getD l)
    | .list l => some (String.intercalate ", " l)
    | .other => none
  | _ => none

/-- C84.  The function follows its documentation exactly outside three cases: a string title with a list of at least two labels, a
true title with an empty list of labels, and a title that is true without being a boolean or a string. -/
theorem C84_title_partial (title : Title) (label : Label)
    (h1 : ∀ s l, title = .str s → label = .list l → s ≠ "" → l.length = 1)
    (h2 : title = .bool true → label ≠ .list []) (h3 : title ≠ .other true) :
    getTitle title label = .ok (docTitle title label) := by
  cases title with
  | none => rfl
  | other b => cases b with
    | false => rfl
    | true => exact absurd rfl h3
  | bool b => cases b with
    | false => rfl
    | true => cases label with
      | str l => rfl
      | other => rfl
      | list l => match l, h2 with
        | [], h2 => exact absurd rfl (h2 rfl)
        | [a], _ => rfl
        | a :: b :: l, _ => rfl
  | str s =>
    by_cases hs : s = ""
    · subst hs
      rfl
    · have ht : (Title.str s).truth = true := by
        show (!s.isEmpty) = true
        rw [String.isEmpty_eq_false_iff.2 hs]
        rfl
      have hd : docTitle (.str s) label = some s := if_neg hs
      rw [hd]
      unfold getTitle
      rw [ht]
      cases label with
      | str l => rfl
      | other => rfl
      | list l => match l, h1 s l rfl rfl hs with
        | [a], _ => rfl

example : getTitle (.bool true) (.list ["weight"]) = .ok (some "Weights") := by decide

example : getTitle (.str "RHG") (.str "bit_val") = .ok (some "RHG") := by decide

/-- C84, the refutations: the given string is not the title if there are several labels; the other two cases raise. -/
theorem C84_title_cases :
    (∀ s a b l, s ≠ "" → getTitle (.str s) (.list (a :: b :: l)) = .ok (some (String.intercalate ", " (a :: b :: l)))) ∧
    (∀ title, title.truth = true → getTitle title (.list []) = .error .indexError) ∧
    (∀ l, getTitle (.other true) (.str l) = .error .unboundLocal ∧ getTitle (.other true) (.list [l]) = .error .unboundLocal) := by
  refine ⟨fun s a b l hs => ?_, fun title ht => ?_, fun l => ⟨rfl, rfl⟩⟩
  · have ht : (Title.str s).truth = true := by
      show (!s.isEmpty) = true
      rw [String.isEmpty_eq_false_iff.2 hs]
      rfl
    unfold getTitle
    rw [ht]
    rfl
  · unfold getTitle
    rw [ht]
    rfl

/-! ### Hover texts -/

/-- Specification of one line of the hover text: the attribute and its value, if there is one. -/
def hoverLine (value : Option String) (key : String) : String :=
  match value with
  | some v => "<br />" ++ key ++ ": " ++ v
  | none => ""

/-- The value a hover text shows for a name: the index of the node for `"index"`, the attribute otherwise. -/
def shownValue (n : NodeInfo) (key : String) : Option String :=
  if key = "index" then n.index else (PyDict.get? n.attrs key).join

theorem fold_lines (f : String → Option String) (l : List String) (acc : String) :
    l.foldl (fun acc key => match f key with
      | some v => acc ++ "<br />" ++ key ++ ": " ++ v
      | none => acc) acc = acc ++ String.join (l.map fun k => hoverLine (f k) k) := by
  induction l generalizing acc with
  | nil => simp
  | cons a l ih =>
    rw [List.foldl_cons, ih, List.map_cons, String.join_cons]
    unfold hoverLine
    cases f a <;> simp [String.append_assoc]

theorem list_text (n : NodeInfo) (l : List String) (h : "index" ∈ l → n.index.isSome) :
    getNodeInfo n (.list l) = .ok (some (n.name ++ String.join (l.map fun k => hoverLine (shownValue n k) k))) := by
  by_cases hi : "index" ∈ l
  · obtain ⟨i, hin⟩ := Option.isSome_iff_exists.1 (h hi)
    unfold getNodeInfo
    simp only [hi, decide_true, if_true, hin]
    refine Eq.trans (congrArg (fun t => Except.ok (some t)) (fold_lines (fun key => (PyDict.get? (PyDict.set n.attrs "index" (some i)) key).join) l n.name)) ?_
    congr 4
    refine List.map_congr_left fun k _ => ?_
    congr 1
    unfold shownValue
    by_cases hk : k = "index"
    · subst hk
      rw [PyDict.get?_set, if_pos rfl, if_pos rfl, hin]
      rfl
    · rw [PyDict.get?_set, if_neg (Ne.symm hk), if_neg hk]
  · unfold getNodeInfo
    simp only [hi, decide_false]
    refine Eq.trans (congrArg (fun t => Except.ok (some t)) (fold_lines (fun key => (PyDict.get? n.attrs key).join) l n.name)) ?_
    congr 4
    refine List.map_congr_left fun k hk => ?_
    congr 1
    unfold shownValue
    rw [if_neg (fun e => hi (by rw [← e]; exact hk))]

/-- C84.  The hover text for a list of names is the node followed by one line for each name that has a value, in the given order; `"coordinates"` gives the
node; `"all"` gives the index and every attribute with a value.  Partial: as the next theorem says, `None` is not accepted and `"all"` needs indices. -/
theorem C84_info_partial (n : NodeInfo) :
    getNodeInfo n (.str "coordinates") = .ok (some n.name) ∧
    (∀ l, ("index" ∈ l → n.index.isSome) →
      getNodeInfo n (.list l) = .ok (some (n.name ++ String.join (l.map fun k => hoverLine (shownValue n k) k)))) ∧
    (n.index.isSome → ∃ l, getNodeInfo n (.str "all") = .ok (some (n.name ++ String.join (("index" :: l).map fun k => hoverLine (shownValue n k) k))) ∧
      l.Perm (PyDict.keys n.attrs) ∧ l.Pairwise (· ≤ ·)) := by
  refine ⟨?_, list_text n, fun hi => ?_⟩
  · have : isInfix "index".toList "coordinates".toList = false := by decide
    unfold getNodeInfo
    simp only [show ("coordinates" : String) ≠ "all" by decide, if_false, this]
    rfl
  · refine ⟨(PyDict.keys n.attrs).mergeSort fun a b => decide (a ≤ b), ?_, List.mergeSort_perm _ _, ?_⟩
    · rw [← list_text n _ fun _ => hi]
      unfold getNodeInfo
      simp only [if_true]
    · have := List.pairwise_mergeSort (le := fun a b : String => decide (a ≤ b)) (fun a b c h1 h2 => by
          simp only [decide_eq_true_eq] at *; exact String.le_trans h1 h2)
        (fun a b => by simpa using String.le_total a b) (PyDict.keys n.attrs)
      simpa using this

example : getNodeInfo ⟨"(0, 1, 1)", [("state", some "GKP"), ("bit_val", none)], some "7"⟩ (.list ["index", "state", "bit_val"]) =
    .ok (some "(0, 1, 1)<br />index: 7<br />state: GKP") := by decide

/-- C84, the refutations.  `None` raises although it is documented to mean no text; without index dictionaries `"all"` raises, and so does every
attribute name that contains "index". -/
theorem C84_info_cases (n : NodeInfo) :
    getNodeInfo n .none = .error .typeError ∧
    (n.index = none → getNodeInfo n (.str "all") = .error .typeError ∧
      ∀ s, s ≠ "all" → isInfix "index".toList s.toList = true → getNodeInfo n (.str s) = .error .typeError) := by
  refine ⟨rfl, fun h => ⟨?_, fun s hs hi => ?_⟩⟩
  · unfold getNodeInfo
    simp only [if_true, List.mem_cons, true_or, decide_true, h]
    rfl
  · unfold getNodeInfo
    simp only [hs, if_false, hi, h]
    rfl

example : isInfix "index".toList "reindexed".toList = true := by decide

/-! ### Messages -/

/-- C84.  With a title, or if every node has the attribute, all nodes are drawn, those with a value are labelled, and the message tells how many are not. -/
theorem C84_message (values : List (Option ℝ)) (labelled : Bool) (title : Option String)
    (h : labelled = true → title = none → ∀ v ∈ values, v.isSome) :
    ∃ drawn marked msg, plotNodes values labelled title = .ok (drawn, marked, msg) ∧ drawn = values.length ∧
      marked = (if labelled then (values.filter Option.isSome).length else 0) ∧
      (msg = none ↔ labelled = false ∨ ∀ v ∈ values, v.isSome) ∧
      ∀ m, msg = some m → ∃ t, title = some t ∧
        m = t.toLower ++ " at " ++ toString (values.length - marked) ++ " node(s) have not yet been computed." := by
  have hsum : (values.filter fun v => v.isNone).length + (values.filter Option.isSome).length = values.length := by
    induction values with
    | nil => rfl
    | cons a l ih =>
      have ih := ih fun h1 h2 v hv => h h1 h2 v (by simp [hv])
      cases a <;> simp <;> omega
  have hz : (values.filter fun v => v.isNone).length = 0 ↔ ∀ v ∈ values, v.isSome := by
    rw [List.length_eq_zero_iff, List.filter_eq_nil_iff]
    refine forall₂_congr fun v _ => ?_
    cases v <;> simp
  unfold plotNodes
  simp only
  by_cases hc : (labelled && decide (0 < (values.filter fun v => v.isNone).length)) = true
  · rw [if_pos hc]
    rw [Bool.and_eq_true, decide_eq_true_eq] at hc
    cases title with
    | none =>
      have := hz.2 (h hc.1 rfl)
      omega
    | some t =>
      refine ⟨_, _, _, rfl, rfl, by rw [if_pos hc.1]; omega, ?_, ?_⟩
      · rw [← hz, hc.1]
        constructor
        · intro e; cases e
        · rintro (e | e)
          · cases e
          · omega
      · rintro m hm
        refine ⟨t, rfl, ?_⟩
        rw [← Option.some.inj hm, Nat.sub_sub_self (by omega)]
  · rw [if_neg hc]
    have hc' : labelled = true → (values.filter fun v => v.isNone).length = 0 := by
      intro hl
      by_contra h0
      exact hc (by rw [hl, Bool.true_and, decide_eq_true_eq]; omega)
    refine ⟨_, _, _, rfl, rfl, ?_, ?_, fun m hm => by cases hm⟩
    · split_ifs with hl
      · have := hc' hl
        omega
      · rfl
    · refine ⟨fun _ => ?_, fun _ => rfl⟩
      rw [← hz]
      cases labelled with
      | false => exact Or.inl rfl
      | true => exact Or.inr (hc' rfl)

/-- C84, the refutation: without a title the drawing raises as soon as one node has no value. -/
theorem C84_message_fails (values : List (Option ℝ)) (h : none ∈ values) : plotNodes values true none = .error .attributeError := by
  unfold plotNodes
  have : 0 < (values.filter fun v => v.isNone).length := List.length_pos_of_mem (List.mem_filter.2 ⟨h, rfl⟩)
  simp [this]

example : plotNodes [some 1, none, none] true (some "Weights") =
    .ok (3, 1, some ("Weights".toLower ++ " at 2 node(s) have not yet been computed.")) := by
  unfold plotNodes
  simp only [List.filter, Option.isNone]
  simp [String.append_assoc]
  decide

/-! ### Colours -/

/-- C84.  Nodes always get a colour that the argument, the dictionary or the node names, black otherwise. -/
theorem C84_node_color (attrs : List (String × Option String)) :
    (∀ s, getNodeColor attrs (.str s) = .ok (some s)) ∧
    (∀ a d c, PyDict.get? d (PyDict.get? attrs a).join = some c → getNodeColor attrs (.attr a d) = .ok (some c)) ∧
    (∀ a d, PyDict.get? d (PyDict.get? attrs a).join = none → getNodeColor attrs (.attr a d) = .ok (some "black")) ∧
    (∀ c, PyDict.get? attrs "color" = some (some c) → getNodeColor attrs (.bool true) = .ok (some c)) ∧
    (PyDict.get? attrs "color" = none → getNodeColor attrs (.bool true) = .ok (some "black")) ∧
    getNodeColor attrs (.bool false) = .ok (some "black") ∧ getNodeColor attrs .badTuple = .error .valueError := by
  refine ⟨fun _ => rfl, fun a d c h => ?_, fun a d h => ?_, fun c h => ?_, fun h => ?_, rfl, rfl⟩ <;> simp [getNodeColor, h]

/-- C84.  Edges likewise, but an edge whose attribute value is not in the dictionary gets no colour at all. -/
theorem C84_edge_color (attrs : List (String × Option String)) :
    (∀ s, getEdgeColor attrs (.str s) = .ok (some s)) ∧
    (∀ a d c, PyDict.get? d (PyDict.get? attrs a).join = some c → getEdgeColor attrs (.attr a d) = .ok (some c)) ∧
    (∀ a d, PyDict.get? d (PyDict.get? attrs a).join = none → getEdgeColor attrs (.attr a d) = .ok none) ∧
    (∀ c, PyDict.get? attrs "color" = some (some c) → getEdgeColor attrs (.bool true) = .ok (some c)) ∧
    ((PyDict.get? attrs "color").join = none → getEdgeColor attrs (.bool true) = .ok (some "grey")) ∧
    getEdgeColor attrs (.bool false) = .ok (some "grey") ∧ getEdgeColor attrs .badTuple = .error .valueError := by
  refine ⟨fun _ => rfl, fun a d c h => ?_, fun a d h => ?_, fun c h => ?_, fun h => ?_, rfl, rfl⟩ <;> simp [getEdgeColor, h]

example : getNodeColor [("state", some "p")] (.attr "state" [(some "GKP", "b"), (some "p", "r")]) = .ok (some "r") := by decide

example : getEdgeColor [] (.attr "weight" [(some "1", "b")]) = .ok none := by decide

end Flamingpy.Viz
