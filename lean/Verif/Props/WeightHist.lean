import Verif.Model.WeightHist
import Verif.Props.Weights

/-!
# C103: histories of weight assignments
-/

namespace Flamingpy.Weights

open Flamingpy Flamingpy.SurfaceCode

/-- The set of syndrome qubits is traversed in some order. -/
def Call.Visits (c : Call) (code : Code) : Prop := ∀ q, q ∈ c.order ↔ q ∈ code.syndrome

/-- The method and the decoder are such that weights are computed. -/
def Call.Effective (c : Call) : Prop :=
  c.opts.method = "uniform" ∨ (c.opts.method = "blueprint" ∧ c.decoder = "MWPM")

theorem runLoop_notMem (f : V → Except WErr ℝ) (qs : List V) (w : V → Option ℝ) {q : V} (hq : q ∉ qs) :
    (runLoop f qs w).1 q = w q := by
  induction qs generalizing w with
  | nil => rfl
  | cons a qs ih =>
    rw [List.mem_cons, not_or] at hq
    unfold runLoop
    cases f a with
    | error e => rfl
    | ok r => exact (ih _ hq.2).trans (Function.update_of_ne hq.1 _ _)

/-- Every node ends with its old or its new weight. -/
theorem runLoop_old_or_new (f : V → Except WErr ℝ) (qs : List V) (w : V → Option ℝ) (q : V) :
    (runLoop f qs w).1 q = w q ∨ (q ∈ qs ∧ ∃ r, f q = .ok r ∧ (runLoop f qs w).1 q = some r) := by
  induction qs generalizing w with
  | nil => exact .inl rfl
  | cons a qs ih =>
    unfold runLoop
    cases ha : f a with
    | error e => exact .inl rfl
    | ok r =>
      rcases ih (Function.update w a (some r)) with h | ⟨h, h'⟩
      · by_cases e : q = a
        · subst e
          exact .inr ⟨List.mem_cons_self, r, ha, h.trans (Function.update_self _ _ _)⟩
        · exact .inl (h.trans (Function.update_of_ne e _ _))
      · exact .inr ⟨List.mem_cons_of_mem _ h, h'⟩

theorem runLoop_snd (f : V → Except WErr ℝ) (qs : List V) (w : V → Option ℝ) :
    (runLoop f qs w).2 = none ↔ ∀ q ∈ qs, ∃ r, f q = .ok r := by
  induction qs generalizing w with
  | nil => simp [runLoop]
  | cons a qs ih =>
    unfold runLoop
    cases ha : f a with
    | error e => simp [ha]
    | ok r => simp [ha, ih]

/-- Without an exception, every qubit visited has its new weight. -/
theorem runLoop_new (f : V → Except WErr ℝ) (qs : List V) (w : V → Option ℝ) (hok : (runLoop f qs w).2 = none) {q : V}
    (hq : q ∈ qs) : ∃ r, f q = .ok r ∧ (runLoop f qs w).1 q = some r := by
  induction qs generalizing w with
  | nil => cases hq
  | cons a qs ih =>
    unfold runLoop at hok ⊢
    cases ha : f a with
    | error e => rw [ha] at hok; cases hok
    | ok r =>
      rw [ha] at hok
      by_cases h : q ∈ qs
      · exact ih _ hok h
      · rcases List.mem_cons.1 hq with rfl | h'
        · exact ⟨r, ha, (runLoop_notMem f qs _ h).trans (Function.update_self _ _ _)⟩
        · exact absurd h' h

/-- The weight function of an effective call. -/
noncomputable def Call.value (c : Call) (code : Code) : V → Except WErr ℝ :=
  if c.opts.method = "blueprint" then blueprintWeight c.opts c.attrs code.graph
  else if c.decoder = "UF" then fun q => .ok (ufWeight c.attrs code.graph q) else fun _ => .ok 1

theorem assignCall_effective {c : Call} (hc : c.Effective) (code : Code) (SG : StabGraph) (st : WState) :
    assignCall code SG c st = finish SG st (runLoop (c.value code) c.order st.nodes) := by
  unfold assignCall Call.value
  rcases hc with h | ⟨h, h'⟩
  · have : ¬ c.opts.method = "blueprint" := by rw [h]; decide
    rw [if_neg this, if_neg this, if_pos h]
    split_ifs <;> rfl
  · rw [if_pos h, if_pos h, if_pos h']

theorem finish_nodes (SG : StabGraph) (st : WState) (r : (V → Option ℝ) × Option WErr) : (finish SG st r).1.nodes = r.1 := by
  obtain ⟨w, _ | e⟩ := r <;> rfl

theorem finish_snd (SG : StabGraph) (st : WState) (r : (V → Option ℝ) × Option WErr) : (finish SG st r).2 = r.2 := by
  obtain ⟨w, _ | e⟩ := r <;> rfl

/-- The edges after a call: those of the nodes if it returned, the old ones otherwise. -/
theorem assignCall_edges (code : Code) (SG : StabGraph) (c : Call) (st : WState) :
    (assignCall code SG c st).1.edges =
      if (assignCall code SG c st).2 = none then assignEdges SG (assignCall code SG c st).1.nodes else st.edges := by
  unfold assignCall
  generalize (if c.opts.method = "blueprint" then _ else _) = r
  obtain ⟨w, _ | e⟩ := r <;> simp [finish]

/-- C103.  Weights are written on syndrome qubits only, whatever the history of calls. -/
theorem C103_others (code : Code) (SG : StabGraph) (cs : List Call) (hcs : ∀ c ∈ cs, c.Visits code) (st : WState) {q : V}
    (hq : q ∉ code.syndrome) : (assignCalls code SG cs st).nodes q = st.nodes q := by
  induction cs generalizing st with
  | nil => rfl
  | cons c cs ih =>
    refine (ih (fun d hd => hcs d (List.mem_cons_of_mem _ hd)) _).trans ?_
    have hn : q ∉ c.order := fun h => hq ((hcs c List.mem_cons_self q).1 h)
    unfold assignCall
    rw [finish_nodes]
    split_ifs <;> first | rfl | exact runLoop_notMem _ _ _ hn

/-- C103.  A call with an unknown method, or blueprint weights with a decoder other than MWPM, leaves the weights of the nodes as they
were; it raises only for Union-Find, and otherwise silently copies the old weights to the edges. -/
theorem C103_ineffective {c : Call} (hc : ¬ c.Effective) (code : Code) (SG : StabGraph) (st : WState) :
    (assignCall code SG c st).1.nodes = st.nodes ∧
      ((assignCall code SG c st).2 = if c.opts.method = "blueprint" ∧ c.decoder = "UF" then some .incompatible else none) := by
  unfold Call.Effective at hc
  push Not at hc
  unfold assignCall
  rw [finish_nodes, finish_snd]
  by_cases hb : c.opts.method = "blueprint"
  · by_cases hu : c.decoder = "UF"
    · simp [hb, hu]
    · simp [hb, hu, hc.2 hb]
  · simp [hb, hc.1]

/-- C103.  Whether an effective call raises does not depend on the weights that are there, nor on the order; it agrees with `assign_weights` of
C42, and so do the weights. -/
theorem C103_agrees {c : Call} {code : Code} (hv : c.Visits code) (SG : StabGraph) (st : WState)
    (hok : (assignCall code SG c st).2 = none) :
    ∃ w, assignWeights code SG c.decoder c.opts c.attrs st.nodes = .ok (w, assignEdges SG w) ∧ (assignCall code SG c st).1 = ⟨w, assignEdges SG w⟩ := by
  have key : ∃ w, assignNodes code c.decoder c.opts c.attrs st.nodes = .ok w ∧ (assignCall code SG c st).1.nodes = w := by
    have loop : ∀ f : V → Except WErr ℝ, (runLoop f c.order st.nodes).2 = none →
        setAll f code.syndrome st.nodes = .ok (runLoop f c.order st.nodes).1 := by
      intro f hf
      have h1 := (runLoop_snd f c.order st.nodes).1 hf
      choose! g hg using h1
      rw [setAll_ok f g code.syndrome st.nodes fun q hq => hg q ((hv q).2 hq)]
      congr 1
      funext q
      by_cases hq : q ∈ code.syndrome
      · rw [if_pos hq]
        obtain ⟨r, hr, he⟩ := runLoop_new f c.order st.nodes hf ((hv q).2 hq)
        rw [he]
        rw [hg q ((hv q).2 hq)] at hr
        rw [Except.ok.inj hr]
      · rw [if_neg hq, runLoop_notMem f c.order st.nodes fun h => hq ((hv q).1 h)]
    unfold assignCall at hok ⊢
    unfold assignNodes
    rw [finish_snd] at hok
    rw [finish_nodes]
    split_ifs at hok ⊢
    · exact ⟨_, loop _ hok, rfl⟩
    · exact ⟨_, rfl, rfl⟩
    · exact ⟨_, loop _ hok, rfl⟩
    · exact ⟨_, loop _ hok, rfl⟩
    · exact ⟨_, rfl, rfl⟩
  obtain ⟨w, h1, h2⟩ := key
  refine ⟨w, assign_of_nodes SG h1, ?_⟩
  have he := assignCall_edges code SG c st
  rw [if_pos hok, h2] at he
  rw [← he, ← h2]

/-- C103.  After a call that raises, the edges have their old weights, and each node has its old weight or the one that belongs to the call. -/
theorem C103_failed (code : Code) (SG : StabGraph) (c : Call) (st : WState) {e : WErr} (he : (assignCall code SG c st).2 = some e) :
    (assignCall code SG c st).1.edges = st.edges ∧
      ∀ q, (assignCall code SG c st).1.nodes q = st.nodes q ∨
        ∃ r, blueprintWeight c.opts c.attrs code.graph q = .ok r ∧ (assignCall code SG c st).1.nodes q = some r := by
  refine ⟨by rw [assignCall_edges, he]; simp, fun q => ?_⟩
  by_cases hc : c.Effective
  · rw [assignCall_effective hc] at he ⊢
    rw [finish_snd] at he
    rw [finish_nodes]
    have hb : c.opts.method = "blueprint" := by
      by_contra hb
      have : (runLoop (c.value code) c.order st.nodes).2 = none := by
        rw [runLoop_snd]
        intro q _
        unfold Call.value
        rw [if_neg hb]
        split_ifs <;> exact ⟨_, rfl⟩
      rw [this] at he
      cases he
    have hval : c.value code = blueprintWeight c.opts c.attrs code.graph := by
      unfold Call.value
      rw [if_pos hb]
    rcases runLoop_old_or_new (c.value code) c.order st.nodes q with h | ⟨_, r, h, h'⟩
    · exact .inl h
    · exact .inr ⟨r, by rw [← hval]; exact h, h'⟩
  · exact .inl (congrFun (C103_ineffective hc code SG st).1 q)

/-- The weights of an effective call that returns do not depend on those before it. -/
theorem assignCall_fresh {c : Call} {code : Code} (hc : c.Effective) (hv : c.Visits code) (SG : StabGraph) (st st' : WState) :
    (assignCall code SG c st).2 = (assignCall code SG c st').2 ∧ ((assignCall code SG c st).2 = none →
      ∀ q ∈ code.syndrome, (assignCall code SG c st).1.nodes q = (assignCall code SG c st').1.nodes q) := by
  rw [assignCall_effective hc, assignCall_effective hc]
  simp only [finish_nodes, finish_snd]
  have h2 : ∀ qs w w', (runLoop (c.value code) qs w).2 = (runLoop (c.value code) qs w').2 := by
    intro qs
    induction qs with
    | nil => intro w w'; rfl
    | cons a qs ih =>
      intro w w'
      unfold runLoop
      cases c.value code a with
      | error e => rfl
      | ok r => exact ih _ _
  refine ⟨h2 _ _ _, fun hok q hq => ?_⟩
  obtain ⟨r, hr, e⟩ := runLoop_new _ _ _ hok ((hv q).2 hq)
  obtain ⟨r', hr', e'⟩ := runLoop_new _ _ _ ((h2 _ st'.nodes st.nodes).trans hok) ((hv q).2 hq)
  rw [hr] at hr'
  rw [e, e', Except.ok.inj hr']

theorem assignEdges_congr {code : Code} (h : IsCode code) (bk : Backend) (sp : SetPop) {w w' : V → Option ℝ}
    (hw : ∀ q ∈ code.syndrome, w q = w' q) :
    assignEdges (stabGraph bk sp code) w = assignEdges (stabGraph bk sp code) w' := by
  unfold assignEdges
  apply List.map_congr_left
  rintro ⟨e, x⟩ hx
  cases x with
  | none => rfl
  | some x => simp only [hw x (C28_toggles h bk sp hx fun _ => false).1]

/-- C103.  The weights of the syndrome qubits and of all edges after any history of calls, some of which may have raised, are those of the last
effective call, if it returned, as if it had been the only one. -/
theorem C103_last {code : Code} (h : IsCode code) (bk : Backend) (sp : SetPop) (cs : List Call) {c : Call} (ds : List Call)
    (hc : c.Effective) (hv : c.Visits code) (hds : ∀ d ∈ ds, ¬ d.Effective) (st fresh : WState)
    (hok : (assignCall code (stabGraph bk sp code) c fresh).2 = none) :
    (∀ q ∈ code.syndrome, (assignCalls code (stabGraph bk sp code) (cs ++ c :: ds) st).nodes q =
      (assignCall code (stabGraph bk sp code) c fresh).1.nodes q) ∧
    (assignCalls code (stabGraph bk sp code) (cs ++ c :: ds) st).edges = (assignCall code (stabGraph bk sp code) c fresh).1.edges := by
  set SG := stabGraph bk sp code with hSG
  unfold assignCalls
  rw [List.foldl_append, List.foldl_cons]
  generalize List.foldl _ st cs = s0
  have hf := assignCall_fresh hc hv SG s0 fresh
  have hok0 : (assignCall code SG c s0).2 = none := hf.1.trans hok
  have hn := hf.2 hok0
  have he : (assignCall code SG c s0).1.edges = assignEdges SG (assignCall code SG c s0).1.nodes := by
    rw [assignCall_edges, if_pos hok0]
  have he' : (assignCall code SG c fresh).1.edges = assignEdges SG (assignCall code SG c fresh).1.nodes := by
    rw [assignCall_edges, if_pos hok]
  generalize (assignCall code SG c s0).1 = s1 at hn he
  have inv : ∀ (ds : List Call) (s : WState), (∀ d ∈ ds, ¬ d.Effective) → s.edges = assignEdges SG s.nodes →
      (List.foldl (fun st c => (assignCall code SG c st).1) s ds).nodes = s.nodes ∧
      (List.foldl (fun st c => (assignCall code SG c st).1) s ds).edges = s.edges := by
    intro ds
    induction ds with
    | nil => intro s _ _; exact ⟨rfl, rfl⟩
    | cons d ds ih =>
      intro s hd hs
      have h1 := (C103_ineffective (hd d List.mem_cons_self) code SG s).1
      have h2 : (assignCall code SG d s).1.edges = s.edges := by
        rw [assignCall_edges, h1, ← hs, ite_self]
      rw [List.foldl_cons]
      have := ih (assignCall code SG d s).1 (fun d hd' => hd d (List.mem_cons_of_mem _ hd')) (by rw [h2, h1, hs])
      exact ⟨this.1.trans h1, this.2.trans h2⟩
  have hfin := inv ds s1 hds he
  refine ⟨fun q hq => by rw [hfin.1]; exact hn q hq, ?_⟩
  rw [hfin.2, he, he']
  exact assignEdges_congr h bk sp hn

/-- C103.  So a misspelt method or decoder after uniform weights leaves uniform weights, without an exception. -/
theorem C103_stale {code : Code} (SG : StabGraph) (c d : Call) (hv : c.Visits code) (hu : c.opts.method = "uniform") (hdec : c.decoder ≠ "UF")
    (hd : ¬ d.Effective) (st : WState) :
    ∀ q ∈ code.syndrome, (assignCalls code SG [c, d] st).nodes q = some 1 := by
  intro q hq
  change (assignCall code SG d (assignCall code SG c st).1).1.nodes q = _
  rw [(C103_ineffective hd code SG _).1, assignCall_effective (.inl hu), finish_nodes]
  have hval : c.value code = fun _ => .ok 1 := by
    unfold Call.value
    rw [if_neg (by rw [hu]; decide), if_neg hdec]
  rw [hval]
  have hok : (runLoop (fun _ => .ok 1) c.order st.nodes).2 = none := (runLoop_snd _ _ _).2 fun _ _ => ⟨1, rfl⟩
  obtain ⟨r, hr, e⟩ := runLoop_new _ _ _ hok ((hv q).2 hq)
  rw [e, ← Except.ok.inj hr]

/-! ### Concrete cases -/

-- blueprint weights without a noise parameter raise, and are ineffective with Union-Find; uniform weights return
example : ∃ code, IsCode code ∧
    (∀ SG st, (assignCall code SG ⟨"MWPM", ⟨"uniform", false, 1, false, none⟩, ⟨fun _ => none, fun _ => none, fun _ => none⟩, code.syndrome⟩ st).2 = none) ∧
    Call.Effective ⟨"MWPM", ⟨"uniform", false, 1, false, none⟩, ⟨fun _ => none, fun _ => none, fun _ => none⟩, code.syndrome⟩ ∧
    Call.Visits ⟨"MWPM", ⟨"uniform", false, 1, false, none⟩, ⟨fun _ => none, fun _ => none, fun _ => none⟩, code.syndrome⟩ code ∧
    ¬ Call.Effective ⟨"UF", ⟨"blueprint", false, 1, false, none⟩, ⟨fun _ => none, fun _ => none, fun _ => none⟩, code.syndrome⟩ ∧
    ¬ Call.Effective ⟨"MWPM", ⟨"Uniform", false, 1, false, none⟩, ⟨fun _ => none, fun _ => none, fun _ => none⟩, code.syndrome⟩ := by
  obtain ⟨code, h, -, -, -⟩ := C54_constructor_total idOrder .primal .open (dims := fun _ => 3) (by simp) none
  refine ⟨code, ⟨idOrder, .primal, .open, _, none, by simp, h⟩, fun SG st => ?_, .inl rfl, fun _ => Iff.rfl, ?_, ?_⟩
  · rw [assignCall_effective (.inl rfl), finish_snd, runLoop_snd]
    exact fun q _ => ⟨1, rfl⟩
  · simp [Call.Effective]
  · simp [Call.Effective]

-- blueprint weights without node labels raise as soon as a qubit has a neighbour
example (code : Code) (SG : StabGraph) (st : WState) {q : V} (hq : q ∈ code.syndrome) (hn : adjOf code.graph q ≠ []) :
    (assignCall code SG ⟨"MWPM", ⟨"blueprint", false, 1, false, none⟩, ⟨fun _ => none, fun _ => none, fun _ => none⟩, code.syndrome⟩ st).2 ≠ none := by
  rw [assignCall_effective (.inr ⟨rfl, rfl⟩), finish_snd, Ne, runLoop_snd]
  intro h
  obtain ⟨r, hr⟩ := h q hq
  obtain ⟨v, l, hl⟩ := List.exists_cons_of_ne_nil hn
  simp only [Call.value, if_true, blueprintWeight, pCount, hl, List.mapM_cons, need] at hr
  cases hr

end Flamingpy.Weights
