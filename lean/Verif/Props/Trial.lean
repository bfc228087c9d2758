import Verif.Proofs.Trial

/-!
# C58: `correct` from weights to verdict
-/

namespace Flamingpy.Trial

open Flamingpy Flamingpy.SurfaceCode Flamingpy.UnionFind Flamingpy.Weights

/-- Combinations of decoder and weight options that are meant to work: uniform weights with either decoder, blueprint weights
with MWPM if the attributes they need are there. -/
def Valid (code : Code) (name : String) (o : Opts) (a : Attrs) : Prop :=
  (name = "MWPM" ∧ (o.method = "uniform" ∨ (o.method = "blueprint" ∧ BlueprintOk code o a))) ∨
    (name = "UF" ∧ o.method = "uniform")

theorem nodes_of_assign {code : Code} {SG : StabGraph} {name : String} {o : Opts} {a : Attrs}
    {w w' : V → Option ℝ} {E : List (Sym2 SNode × Option ℝ)} (h : assignWeights code SG name o a w = .ok (w', E)) :
    assignNodes code name o a w = .ok w' := by
  unfold assignWeights at h
  cases hn : assignNodes code name o a w with
  | error e => rw [hn] at h; cases h
  | ok v => rw [hn] at h; cases h; rfl

/-- The weights stored by `assign_weights` for valid options. -/
theorem weights_ok {code : Code} (h : IsCode code) {name : String} {o : Opts} {a : Attrs} (hv : Valid code name o a)
    (weights : V → Option ℝ) :
    ∃ w, assignNodes code name o a weights = .ok w ∧ (∀ q ∈ code.syndrome, (w q).isSome) ∧
      (name = "MWPM" → ∀ q ∈ code.syndrome, 0 ≤ (w q).getD 0) ∧
      (o.method = "uniform" → name = "MWPM" → ∀ q ∈ code.syndrome, w q = some 1) ∧
      (name = "UF" → ∀ q ∈ code.syndrome, w q = some (if 2 ≤ squeezedNeighbors code a q then -1 else 2)) := by
  rcases hv with ⟨rfl, ho | ⟨ho, hb⟩⟩ | ⟨rfl, ho⟩
  · obtain ⟨w, E, h1, h2⟩ := C42_uniform code ⟨[], [], [], [], []⟩ "MWPM" (by decide) o ho a weights
    have h3 : ∀ q ∈ code.syndrome, w q = some 1 := fun q hq => by rw [h2, if_pos hq]
    exact ⟨w, nodes_of_assign h1, fun q hq => by simp [h3 q hq], fun _ q hq => by simp [h3 q hq], fun _ _ => h3,
      fun e => absurd e (by decide)⟩
  · obtain ⟨w, E, h1, h2⟩ := C42_blueprint_bound h ⟨[], [], [], [], []⟩ o ho a hb weights
    refine ⟨w, nodes_of_assign h1, fun q hq => ?_, fun _ q hq => ?_, fun e => ?_, fun e => absurd e (by decide)⟩
    · obtain ⟨r, hr, -⟩ := h2 q hq
      simp [hr]
    · obtain ⟨r, hr, hl, -⟩ := h2 q hq
      have := Real.log_pos (show (1 : ℝ) < 2 by norm_num)
      rw [hr, Option.getD_some]; linarith
    · rw [ho] at e; exact absurd e (by decide)
  · obtain ⟨w, E, h1, h2⟩ := C42_union_find code ⟨[], [], [], [], []⟩ o ho a weights
    have h3 : ∀ q ∈ code.syndrome, w q = some (if 2 ≤ squeezedNeighbors code a q then -1 else 2) := fun q hq => by
      rw [h2, if_pos hq]
    exact ⟨w, nodes_of_assign h1, fun q hq => by simp [h3 q hq], fun e => absurd e (by decide),
      fun _ e => absurd e (by decide), fun _ => h3⟩

/-- Either decoder, with the weights it needs, clears the syndrome. -/
theorem decoder_clears {code : Code} (h : IsCode code) (X : Libs) {name : String} (hn : name = "MWPM" ∨ name = "UF")
    {w : V → ℚ} (hw : name = "MWPM" → ∀ q ∈ code.syndrome, 0 ≤ w q) (bits : V → Bool) :
    ∃ R bits', decoderFunc X code name w bits = some R ∧ R.Nodup ∧ (∀ q ∈ R, ∃ x ∈ code.syndrome, q = some x) ∧
      recovery (PyDict.keys code.graph.nodes) R bits = some bits' ∧ trivialSyndrome code bits' := by
  unfold decoderFunc
  rcases hn with rfl | rfl
  · simp only [if_true]
    exact C34_clears h X.bk X.paths X.matching X.sp w (hw rfl) bits
  · simp only [if_neg (show ¬ ("UF" = "MWPM") by decide), if_true]
    exact C39_clears h X.bk X.sp X.comps X.span X.iter w bits _ le_rfl

/-- The decoders see the bits only through the stabilizer parities. -/
theorem decoder_congr {code : Code} (h : IsCode code) (X : Libs) (name : String) (w : V → ℚ) {bits bits₂ : V → Bool}
    (hb : ∀ s ∈ code.stabs, parity bits s = parity bits₂ s) :
    decoderFunc X code name w bits = decoderFunc X code name w bits₂ := by
  have hc : ∀ k, parity bits ((stabGraph X.bk X.sp code).coords k) = parity bits₂ ((stabGraph X.bk X.sp code).coords k) := by
    intro k
    unfold StabGraph.coords
    rw [(h.stabGraph X.bk X.sp).2.1]
    by_cases hk : k < code.stabs.length
    · rw [List.getD_eq_getElem _ _ hk]; exact hb _ (List.getElem_mem _)
    · rw [List.getD_eq_default _ _ (by omega)]; rfl
  have ho : oddStabs (stabGraph X.bk X.sp code) bits = oddStabs (stabGraph X.bk X.sp code) bits₂ := by
    unfold oddStabs
    simp only [hc]
  unfold decoderFunc mwpmDecoder matchGraph ufDecoder ufInput
  simp only [ho, hc]

theorem correct_congr {code : Code} {d d' : (V → Bool) → Option (List (Option V))} {sanity : Bool} {bits : V → Bool}
    (h : d bits = d' bits) : correct code d sanity bits = correct code d' sanity bits := by
  unfold correct
  rw [h]

theorem correctAll_of {X : Libs} {code : Code} {name : String} {o : Opts} {a : Attrs} {weights w : V → Option ℝ}
    (hw : assignNodes code name o a weights = .ok w) (hs : ∀ q ∈ code.syndrome, (w q).isSome) (sanity : Bool)
    (bits : V → Bool) :
    correctAll X code name o a weights sanity bits =
      (correct code (decoderFunc X code name fun q => X.float.fl ((w q).getD 0)) sanity bits).map
        fun r => (r.1, w, r.2) := by
  unfold correctAll
  rw [hw]
  simp only [Except.toOption, Option.bind_eq_bind, Option.bind_some]
  rw [if_pos hs]
  cases correct code (decoderFunc X code name fun q => X.float.fl ((w q).getD 0)) sanity bits <;> rfl

theorem recovery_syndrome {code : Code} (h : IsCode code) {R : List (Option V)} (hR : R.Nodup)
    (hs : ∀ q ∈ R, ∃ x ∈ code.syndrome, q = some x) (bits : V → Bool) :
    recovery (PyDict.keys code.graph.nodes) R bits = some fun x => xor (bits x) (decide (some x ∈ R)) := by
  have e : R = (R.filterMap id).map some := by
    rw [List.map_filterMap]
    conv_lhs => rw [← List.filterMap_some (l := R)]
    apply List.filterMap_congr
    intro q hq
    obtain ⟨x, -, rfl⟩ := hs q hq
    rfl
  have hn : (R.filterMap id).Nodup := by
    rw [e] at hR
    exact hR.of_map some
  have hm : ∀ x, x ∈ R.filterMap id ↔ some x ∈ R := by
    intro x
    simp [List.mem_filterMap]
  have := recovery_nodup (PyDict.keys code.graph.nodes) (R.filterMap id) (fun q hq => by
    obtain ⟨x, hx, e⟩ := hs (some q) ((hm q).1 hq)
    rw [Option.some.inj e]
    exact h.syndrome_node hx) hn bits
  rw [← e] at this
  rw [this]
  congr 1
  funext x
  simp only [hm]

/-- C58.  For every code, every valid choice of decoder and weights, whatever the libraries choose among equally good
answers, and whatever the bits and earlier weights are, `correct` returns; it changes bits of syndrome qubits only, no
stabilizer is odd afterwards, and the verdict is `True` exactly if what is left is a noiseless pattern.  If no
stabilizer was odd before, no bit is changed. -/
theorem C58_correct {code : Code} (h : IsCode code) (X : Libs) {name : String} {o : Opts} {a : Attrs}
    (hv : Valid code name o a) (weights : V → Option ℝ) (sanity : Bool) (bits : V → Bool) :
    ∃ bits' w ok, correctAll X code name o a weights sanity bits = some (bits', w, ok) ∧
      (∀ x, bits' x ≠ bits x → x ∈ code.syndrome) ∧ trivialSyndrome code bits' ∧
      (ok = true ↔ ∃ vals : V → Bool, ∀ x ∈ code.syndrome, bits' x = parity vals (neighbors code x)) ∧
      (trivialSyndrome code bits → bits' = bits) := by
  obtain ⟨w, hw, hs, hpos, -, -⟩ := weights_ok h hv weights
  have hn : name = "MWPM" ∨ name = "UF" := by rcases hv with ⟨h, -⟩ | ⟨h, -⟩ <;> simp [h]
  obtain ⟨R, bits', h1, h2, h3, h4, h5⟩ := decoder_clears h X hn (w := fun q => X.float.fl ((w q).getD 0))
    (fun e q hq => X.float.nonneg _ (hpos e q hq)) bits
  obtain ⟨ok, hok⟩ : ∃ ok, checkCorrection code bits' sanity = some ok := ⟨_, check_eq h.ok.2 bits' sanity⟩
  have hc : correct code (decoderFunc X code name fun q => X.float.fl ((w q).getD 0)) sanity bits = some (bits', ok) := by
    unfold correct
    rw [h1, Option.bind_eq_bind, Option.bind_some, h4, Option.bind_eq_bind, Option.bind_some, hok]
    rfl
  have hb : bits' = fun x => xor (bits x) (decide (some x ∈ R)) := by
    rw [recovery_syndrome h h2 h3] at h4
    exact (Option.some.inj h4).symm
  refine ⟨bits', w, ok, ?_, ?_, h5, C57_correct h _ hc h5, ?_⟩
  · rw [correctAll_of hw hs, hc]; rfl
  · intro x hx
    rw [hb] at hx
    by_cases hR : some x ∈ R
    · obtain ⟨y, hy, e⟩ := h3 _ hR
      rw [Option.some.inj e]; exact hy
    · simp [hR] at hx
  · intro ht
    have hR : R = [] := by
      have : decoderFunc X code name (fun q => X.float.fl ((w q).getD 0)) bits = some [] := by
        unfold decoderFunc
        rcases hn with rfl | rfl
        · simp only [if_true]
          exact mwpm_trivial h _ _ _ _ _ ht
        · simp only [if_neg (show ¬ ("UF" = "MWPM") by decide), if_true]
          exact uf_trivial h _ _ _ _ _ _ le_rfl ht
      rw [h1] at this
      exact Option.some.inj this
    rw [hb, hR]
    simp

/-- Noiseless bits, for any values on the nodes, are left alone and accepted. -/
theorem C58_noiseless {code : Code} (h : IsCode code) (X : Libs) {name : String} {o : Opts} {a : Attrs}
    (hv : Valid code name o a) (weights : V → Option ℝ) (sanity : Bool) {bits vals : V → Bool}
    (hb : ∀ x ∈ code.syndrome, bits x = parity vals (neighbors code x)) :
    ∃ w, correctAll X code name o a weights sanity bits = some (bits, w, true) := by
  obtain ⟨bits', w, ok, h1, -, -, h4, h5⟩ := C58_correct h X hv weights sanity bits
  have ht := ((C57_verdict h bits sanity).2 ⟨vals, hb⟩).1
  have hb' := h5 ht
  subst hb'
  rw [h4.2 ⟨vals, hb⟩] at h1
  exact ⟨w, h1⟩

/-- The recovery depends on the error only through its syndrome, and the verdict only through its class: adding a noiseless
pattern to the bits flips the same qubits and gives the same verdict. -/
theorem C58_class {code : Code} (h : IsCode code) (X : Libs) {name : String} {o : Opts} {a : Attrs}
    (hv : Valid code name o a) (weights : V → Option ℝ) (sanity : Bool) (bits vals : V → Bool) {bits₂ : V → Bool}
    (h₂ : ∀ x ∈ code.syndrome, bits₂ x = xor (bits x) (parity vals (neighbors code x))) :
    ∃ bits' bits₂' w ok, correctAll X code name o a weights sanity bits = some (bits', w, ok) ∧
      correctAll X code name o a weights sanity bits₂ = some (bits₂', w, ok) ∧
      ∀ x, xor (bits' x) (bits x) = xor (bits₂' x) (bits₂ x) := by
  obtain ⟨w, hw, hs, hpos, -, -⟩ := weights_ok h hv weights
  have hn : name = "MWPM" ∨ name = "UF" := by rcases hv with ⟨h, -⟩ | ⟨h, -⟩ <;> simp [h]
  have hsyn : ∀ s ∈ code.stabs, ∀ x ∈ s, x ∈ code.syndrome := fun s hs x hx => ((C25_only_syndrome h).2.1 s hs).2 x hx
  have hpar : ∀ s ∈ code.stabs, parity bits s = parity bits₂ s := by
    intro s hs
    have h0 : parity (fun x => parity vals (neighbors code x)) s = false :=
      ((C57_verdict h (fun x => parity vals (neighbors code x)) sanity).2 ⟨vals, fun _ _ => rfl⟩).1 s hs
    have e : parity bits₂ s = parity (fun x => xor (bits x) (parity vals (neighbors code x))) s := by
      unfold parity
      congr 1
      exact List.map_congr_left fun x hx => h₂ x (hsyn s hs x hx)
    rw [e, parity_xor, h0, Bool.xor_false]
  obtain ⟨R, bits', h1, h2, h3, h4, h5⟩ := decoder_clears h X hn (w := fun q => X.float.fl ((w q).getD 0))
    (fun e q hq => X.float.nonneg _ (hpos e q hq)) bits
  have h1' := (decoder_congr h X name (fun q => X.float.fl ((w q).getD 0)) hpar).symm.trans h1
  have hr := recovery_syndrome h h2 h3 bits
  have hr₂ := recovery_syndrome h h2 h3 bits₂
  set b' : V → Bool := fun x => xor (bits x) (decide (some x ∈ R)) with hb'
  set b₂' : V → Bool := fun x => xor (bits₂ x) (decide (some x ∈ R)) with hb₂'
  have ht : trivialSyndrome code b' := by
    rw [hr] at h4; rw [Option.some.inj h4]; exact h5
  have ht₂ : trivialSyndrome code b₂' := by
    intro s hs
    rw [hb₂', parity_xor, ← hpar s hs, ← parity_xor]
    exact ht s hs
  obtain ⟨ok, hok⟩ : ∃ ok, checkCorrection code b' sanity = some ok := ⟨_, check_eq h.ok.2 b' sanity⟩
  obtain ⟨ok₂, hok₂⟩ : ∃ ok, checkCorrection code b₂' sanity = some ok := ⟨_, check_eq h.ok.2 b₂' sanity⟩
  have hc : correct code (decoderFunc X code name fun q => X.float.fl ((w q).getD 0)) sanity bits = some (b', ok) := by
    unfold correct
    rw [h1, Option.bind_eq_bind, Option.bind_some, hr, Option.bind_eq_bind, Option.bind_some, hok]
    rfl
  have hc₂ : correct code (decoderFunc X code name fun q => X.float.fl ((w q).getD 0)) sanity bits₂ = some (b₂', ok₂) := by
    unfold correct
    rw [h1', Option.bind_eq_bind, Option.bind_some, hr₂, Option.bind_eq_bind, Option.bind_some, hok₂]
    rfl
  have e : ok = ok₂ := by
    rw [Bool.eq_iff_iff, C57_correct h _ hc ht, C57_correct h _ hc₂ ht₂]
    constructor
    · rintro ⟨v, hv⟩
      refine ⟨fun y => xor (v y) (vals y), fun x hx => ?_⟩
      rw [parity_xor, ← hv x hx, hb₂', hb']
      simp only [h₂ x hx]
      cases bits x <;> cases decide (some x ∈ R) <;> cases parity vals (neighbors code x) <;> rfl
    · rintro ⟨v, hv⟩
      refine ⟨fun y => xor (v y) (vals y), fun x hx => ?_⟩
      rw [parity_xor, ← hv x hx, hb₂', hb']
      simp only [h₂ x hx]
      cases bits x <;> cases decide (some x ∈ R) <;> cases parity vals (neighbors code x) <;> rfl
  refine ⟨b', b₂', w, ok, ?_, ?_, fun x => ?_⟩
  · rw [correctAll_of hw hs, hc]; rfl
  · rw [correctAll_of hw hs, hc₂, e]; rfl
  · rw [hb', hb₂']
    simp only
    cases bits x <;> cases bits₂ x <;> cases decide (some x ∈ R) <;> rfl

/-- Other decoder names are refused, and so are blueprint weights for Union-Find. -/
theorem C58_invalid (X : Libs) (code : Code) (name : String) (o : Opts) (a : Attrs) (weights : V → Option ℝ)
    (sanity : Bool) (bits : V → Bool)
    (hn : (name ≠ "MWPM" ∧ name ≠ "UF") ∨ (name = "UF" ∧ o.method = "blueprint")) :
    correctAll X code name o a weights sanity bits = none := by
  rcases hn with ⟨h1, h2⟩ | ⟨rfl, h2⟩
  · have hd : ∀ w bits, decoderFunc X code name w bits = none := by
      intro w bits
      unfold decoderFunc
      simp only [if_neg h1, if_neg h2]
    unfold correctAll
    cases (assignNodes code name o a weights).toOption with
    | none => rfl
    | some w =>
      simp only [Option.bind_eq_bind, Option.bind_some]
      split
      · unfold correct
        rw [hd]; rfl
      · rfl
  · unfold correctAll assignNodes
    rw [if_pos h2, if_neg (by decide), if_pos rfl]
    rfl

/-! ### Concrete cases -/

theorem libs_exist (bk : Backend) : ∃ X : Libs, X.bk = bk := by
  obtain ⟨p⟩ := pathLib_exists
  obtain ⟨m⟩ := matchLib_exists
  obtain ⟨c⟩ := compLib_exists (N := SNode)
  obtain ⟨s⟩ := spanLib_exists (N := SNode) (Q := Option V)
  obtain ⟨i⟩ := iterOrder_exists (N := SNode)
  obtain ⟨f⟩ := floatLib_exists
  exact ⟨⟨bk, ⟨fun _ _ l => l.headD 0, fun _ _ l hl => by
    cases l with
    | nil => exact absurd rfl hl
    | cons a l => simp⟩, p, m, c, s, i, f⟩, rfl⟩

-- the options of a default call, for both decoders
example (code : Code) (a : Attrs) : Valid code "MWPM" {} a ∧ Valid code "UF" {} a :=
  ⟨Or.inl ⟨rfl, Or.inl rfl⟩, Or.inr ⟨rfl, rfl⟩⟩

-- a single flipped qubit on a distance-3 code, decoded with Union-Find on either backend
example (bk : Backend) (x : V) : ∃ code X bits' w ok, IsCode code ∧ X.bk = bk ∧
    correctAll X code "UF" {} ⟨fun _ => none, fun _ => none, fun _ => none⟩ (fun _ => none) false (fun y => decide (y = x)) =
      some (bits', w, ok) ∧ trivialSyndrome code bits' := by
  obtain ⟨code, h, -, -, -⟩ := C54_constructor_total idOrder .primal .open (dims := fun _ => 3) (by simp) none
  obtain ⟨X, hX⟩ := libs_exist bk
  have hc : IsCode code := ⟨idOrder, .primal, .open, _, none, by simp, h⟩
  obtain ⟨b, w, ok, h1, -, h2, -⟩ := C58_correct hc X (name := "UF") (o := {})
    (a := ⟨fun _ => none, fun _ => none, fun _ => none⟩) (Or.inr ⟨rfl, rfl⟩) (fun _ => none) false (fun y => decide (y = x))
  exact ⟨code, X, b, w, ok, hc, hX, h1, h2⟩

end Flamingpy.Trial
