import Verif.Props.GkpShift
import Verif.Props.HalfNoise

/-!
# C104: lattice shifts of the outcomes and the result of decoding
-/

namespace Flamingpy.Trial

open Flamingpy Flamingpy.SurfaceCode Flamingpy.UnionFind Flamingpy.Weights Flamingpy.Gkp

/-- The attributes `a` with the homodyne outcomes `x`. -/
def withOutcomes (a : Weights.Attrs) (x : V → ℝ) : Weights.Attrs := { a with homValP := fun q => some (x q) }

/-- The bits that the outcomes are binned to. -/
noncomputable def outcomeBits (x : V → ℝ) (q : V) : Bool := decide (gkpBinner (x q) = 1)

/-- The qubits that are moved by an odd number of bins. -/
def oddShift (n : V → ℤ) (q : V) : Bool := decide (n q % 2 = 1)

theorem outcomeBits_shift (x : V → ℝ) (n : V → ℤ) :
    outcomeBits (fun q => x q + n q * √Real.pi) = fun q => xor (outcomeBits x q) (oddShift n q) := by
  funext q
  unfold outcomeBits oddShift
  rw [C102_shift_bit]
  have : gkpBinner (x q) = 0 ∨ gkpBinner (x q) = 1 := by
    unfold gkpBinner
    omega
  rcases this with h | h <;> rcases Int.emod_two_eq_zero_or_one (n q) with h' | h' <;>
    · rw [Int.add_emod, h, h']
      rfl

theorem assignNodes_shift (code : Code) (name : String) (o : Opts) (a : Weights.Attrs) (x : V → ℝ) (n : V → ℤ) (w : V → Option ℝ) :
    assignNodes code name o (withOutcomes a fun q => x q + n q * √Real.pi) w = assignNodes code name o (withOutcomes a x) w := by
  have hb : blueprintWeight o (withOutcomes a fun q => x q + n q * √Real.pi) code.graph = blueprintWeight o (withOutcomes a x) code.graph := by
    funext q
    have he : errProb o (withOutcomes a fun q => x q + n q * √Real.pi) (adjOf code.graph q) q =
        errProb o (withOutcomes a x) (adjOf code.graph q) q := by
      unfold errProb withOutcomes
      cases o.probPrecomputed with
      | true => rfl
      | false =>
        simp only [Bool.false_eq_true, if_false]
        cases o.delta with
        | none => rfl
        | some d =>
          simp only [need]
          exact congrArg Except.ok (C102_shift _ (x q) _ _ (n q))
    unfold blueprintWeight
    simp only [he]
    rfl
  unfold assignNodes
  simp only [hb]
  rfl

theorem correctAll_shift (X : Libs) (code : Code) (name : String) (o : Opts) (a : Weights.Attrs) (x : V → ℝ) (n : V → ℤ)
    (weights : V → Option ℝ) (sanity : Bool) (bits : V → Bool) :
    correctAll X code name o (withOutcomes a fun q => x q + n q * √Real.pi) weights sanity bits =
      correctAll X code name o (withOutcomes a x) weights sanity bits := by
  unfold correctAll
  rw [assignNodes_shift]

/-- The verdict says whether the bits after the recovery are a product of symmetries. -/
theorem verdict_vals {code : Code} (h : IsCode code) {X : Libs} {name : String} {o : Opts} {a : Weights.Attrs} {weights : V → Option ℝ} {sanity : Bool}
    {F : (V → Bool) → V → Bool} {w : V → Option ℝ} {b : V → Bool}
    (hc : trivialSyndrome code (fun x => xor (b x) (F b x)) ∧
        correctAll X code name o a weights sanity b = some (fun x => xor (b x) (F b x), w,
          (planesToCheck code.ec code.boundaries).all fun i => !sheetParity code (fun x => xor (b x) (F b x)) i (lowF code.ec))) :
    ∃ v, correctAll X code name o a weights sanity b = some (fun x => xor (b x) (F b x), w, v) ∧
      (v = true ↔ ∃ vals : V → Bool, ∀ x ∈ code.syndrome, xor (b x) (F b x) = parity vals (neighbors code x)) := by
  refine ⟨_, hc.2, ?_⟩
  rw [← C57_verdict h _ sanity, check_eq h.ok.2, Option.some.injEq]
  exact ⟨fun e => ⟨hc.1, e⟩, fun e => e.2⟩

/-- **C104.** Move the outcomes of the qubits by multiples of `√π`, the odd ones of which every stabilizer sees an even number of times.  Then
decoding, with either decoder, any valid weights (also those computed from the outcomes) and whatever the libraries choose, assigns the
same weights and flips the same qubits: the final bits differ exactly on the qubits moved by an odd number.  The verdict is the same if
these are a product of symmetries of the cluster state (vertex values whose neighbour sums they are); otherwise it is not
`True` for both. -/
theorem C104_shift {code : Code} (h : IsCode code) (X : Libs) {name : String} {o : Opts} {a : Weights.Attrs} {x : V → ℝ}
    (hv : Valid code name o (withOutcomes a x)) (weights : V → Option ℝ) (sanity : Bool) {n : V → ℤ} (hn : trivialSyndrome code (oddShift n)) :
    ∃ b w v v', correctAll X code name o (withOutcomes a x) weights sanity (outcomeBits x) = some (b, w, v) ∧
      correctAll X code name o (withOutcomes a fun q => x q + n q * √Real.pi) weights sanity (outcomeBits fun q => x q + n q * √Real.pi) =
        some (fun q => xor (b q) (oddShift n q), w, v') ∧
      ((∃ vals : V → Bool, ∀ q ∈ code.syndrome, oddShift n q = parity vals (neighbors code q)) → v' = v) ∧
      ((¬ ∃ vals : V → Bool, ∀ q ∈ code.syndrome, oddShift n q = parity vals (neighbors code q)) → ¬ (v = true ∧ v' = true)) := by
  obtain ⟨F, w, hF, hc⟩ := recovery_fun h X hv weights sanity
  obtain ⟨v, h1, h2⟩ := verdict_vals h (hc (outcomeBits x))
  obtain ⟨v', h1', h2'⟩ := verdict_vals h (hc fun q => xor (outcomeBits x q) (oddShift n q))
  have e : F (fun q => xor (outcomeBits x q) (oddShift n q)) = F (outcomeBits x) := by
    apply hF
    intro s hs
    rw [parity_xor, hn s hs, Bool.xor_false]
  rw [e] at h1' h2'
  have hswap : ∀ q, xor (xor (outcomeBits x q) (oddShift n q)) (F (outcomeBits x) q) =
      xor (xor (outcomeBits x q) (F (outcomeBits x) q)) (oddShift n q) := fun q => by
    cases outcomeBits x q <;> cases oddShift n q <;> cases F (outcomeBits x) q <;> rfl
  simp only [hswap] at h1' h2'
  refine ⟨_, w, v, v', h1, ?_, ?_, ?_⟩
  · rw [correctAll_shift, outcomeBits_shift]
    exact h1'
  · rintro ⟨vals, hvals⟩
    have : v' = true ↔ v = true := by
      rw [h2, h2']
      constructor
      · rintro ⟨u, hu⟩
        refine ⟨fun y => xor (u y) (vals y), fun q hq => ?_⟩
        rw [parity_xor, ← hu q hq, ← hvals q hq, Bool.xor_assoc, Bool.xor_self, Bool.xor_false]
      · rintro ⟨u, hu⟩
        refine ⟨fun y => xor (u y) (vals y), fun q hq => ?_⟩
        rw [parity_xor, ← hu q hq, ← hvals q hq]
    exact Bool.eq_iff_iff.2 this
  · rintro hno ⟨ht, ht'⟩
    obtain ⟨u, hu⟩ := h2.1 ht
    obtain ⟨u', hu'⟩ := h2'.1 ht'
    refine hno ⟨fun y => xor (u y) (u' y), fun q hq => ?_⟩
    rw [parity_xor, ← hu q hq, ← hu' q hq]
    cases outcomeBits x q <;> cases oddShift n q <;> cases F (outcomeBits x) q <;> rfl

/-- **C104.** On codes with open boundaries, a shift that no stabilizer sees and that is not a product of symmetries inverts the verdict. -/
theorem C104_open {code : Code} (h : IsCode code) (hb : code.boundaries = .open) (X : Libs) {name : String} {o : Opts} {a : Weights.Attrs} {x : V → ℝ}
    (hv : Valid code name o (withOutcomes a x)) (weights : V → Option ℝ) (sanity : Bool) {n : V → ℤ} (hn : trivialSyndrome code (oddShift n))
    (hl : ¬ ∃ vals : V → Bool, ∀ q ∈ code.syndrome, oddShift n q = parity vals (neighbors code q)) :
    ∃ b w v, correctAll X code name o (withOutcomes a x) weights sanity (outcomeBits x) = some (b, w, v) ∧
      correctAll X code name o (withOutcomes a fun q => x q + n q * √Real.pi) weights sanity (outcomeBits fun q => x q + n q * √Real.pi) =
        some (fun q => xor (b q) (oddShift n q), w, !v) := by
  obtain ⟨F, w, hF, hc⟩ := recovery_fun h X hv weights sanity
  have e : F (fun q => xor (outcomeBits x q) (oddShift n q)) = F (outcomeBits x) := by
    apply hF
    intro s hs
    rw [parity_xor, hn s hs, Bool.xor_false]
  have h1 := (hc (outcomeBits x)).2
  have h2 := (hc fun q => xor (outcomeBits x q) (oddShift n q)).2
  rw [e] at h2
  have hswap : ∀ q, xor (xor (outcomeBits x q) (oddShift n q)) (F (outcomeBits x) q) =
      xor (xor (outcomeBits x q) (F (outcomeBits x) q)) (oddShift n q) := fun q => by
    cases outcomeBits x q <;> cases oddShift n q <;> cases F (outcomeBits x) q <;> rfl
  simp only [hswap] at h2
  refine ⟨_, w, _, h1, ?_⟩
  rw [correctAll_shift, outcomeBits_shift, h2]
  obtain ⟨i, hi⟩ : ∃ i, planesToCheck code.ec code.boundaries = [i] := by
    rw [hb]
    cases code.ec
    · exact ⟨0, rfl⟩
    · exact ⟨1, rfl⟩
  have hp : sheetParity code (oddShift n) i (lowF code.ec) = true := by
    by_contra hp
    refine hl ((C57_verdict h (oddShift n) false).1 ⟨hn, ?_⟩)
    rw [check_eq h.ok.2, hi]
    rw [Bool.not_eq_true] at hp
    simp only [List.all_cons, List.all_nil, hp]
    rfl
  rw [hi]
  simp only [List.all_cons, List.all_nil, Bool.and_true]
  rw [sheetParity_xor code (fun q => xor (outcomeBits x q) (F (outcomeBits x) q)) (oddShift n), hp, Bool.xor_true]

/-- **C104.** In particular nothing changes if all outcomes move by even multiples of `√π`. -/
theorem C104_even {code : Code} (h : IsCode code) (X : Libs) {name : String} {o : Opts} {a : Weights.Attrs} {x : V → ℝ}
    (hv : Valid code name o (withOutcomes a x)) (weights : V → Option ℝ) (sanity : Bool) (n : V → ℤ) :
    correctAll X code name o (withOutcomes a fun q => x q + (2 * n q : ℤ) * √Real.pi) weights sanity
        (outcomeBits fun q => x q + (2 * n q : ℤ) * √Real.pi) =
      correctAll X code name o (withOutcomes a x) weights sanity (outcomeBits x) := by
  have ho : oddShift (fun q => 2 * n q) = fun _ => false := by
    funext q
    simp [oddShift]
  rw [correctAll_shift X code name o a x (fun q => 2 * n q), outcomeBits_shift x (fun q => 2 * n q), ho]
  simp only [Bool.xor_false]

/-! ### Concrete cases -/

-- blueprint weights on a distance-3 code, the outcomes of the neighbours of a vertex moved by one bin: the hypotheses hold
example (v : V) : ∃ code, IsCode code ∧
    Valid code "MWPM" ⟨"blueprint", true, 100, false, some 0.1⟩ (withOutcomes ⟨fun _ => some "GKP", fun _ => none, fun _ => none⟩ fun _ => 1.7) ∧
    ∃ n : V → ℤ, (∃ vals : V → Bool, ∀ q ∈ code.syndrome, oddShift n q = parity vals (neighbors code q)) ∧ trivialSyndrome code (oddShift n) := by
  obtain ⟨code, h, -, -, -⟩ := C54_constructor_total idOrder .primal .open (dims := fun _ => 3) (by simp) none
  have hc : IsCode code := ⟨idOrder, .primal, .open, _, none, by simp, h⟩
  refine ⟨code, hc, Or.inl ⟨rfl, Or.inr ⟨rfl, ?_, ?_, ?_, ?_⟩⟩, fun q => if parity (fun y => decide (y = v)) (neighbors code q) then 1 else 0, ?_⟩
  · intro _ _; exact ⟨_, rfl⟩
  · intro h; cases h
  · intro _; exact ⟨⟨0.1, rfl, by norm_num⟩, fun _ _ => ⟨_, rfl⟩⟩
  · intro _; norm_num
  · have hodd : oddShift (fun q => if parity (fun y => decide (y = v)) (neighbors code q) then 1 else 0) =
        fun q => parity (fun y => decide (y = v)) (neighbors code q) := by
      funext q
      unfold oddShift
      beta_reduce
      cases parity (fun y => decide (y = v)) (neighbors code q) <;> rfl
    rw [hodd]
    exact ⟨⟨_, fun q _ => rfl⟩, ((C57_verdict hc _ false).2 ⟨_, fun q _ => rfl⟩).1⟩

-- there are shifts that no stabilizer sees and that are not a product of symmetries
example {code : Code} (h : IsCode code) : ∃ n : V → ℤ, trivialSyndrome code (oddShift n) ∧
    ¬ ∃ vals : V → Bool, ∀ q ∈ code.syndrome, oddShift n q = parity vals (neighbors code q) := by
  obtain ⟨i, hi⟩ : (checked code).Nonempty := by
    rw [← Finset.card_pos, checked_card]
    cases code.ec <;> cases code.boundaries <;> decide
  obtain ⟨L, l1, l2⟩ := line_exists h hi
  have hodd : oddShift (fun q => if L q then 1 else 0) = L := by
    funext q
    unfold oddShift
    beta_reduce
    cases L q <;> rfl
  refine ⟨fun q => if L q then 1 else 0, by rw [hodd]; exact l1, ?_⟩
  rw [hodd, ← C57_verdict h L false]
  rintro ⟨-, hv⟩
  rw [check_eq h.ok.2, Option.some.injEq, List.all_eq_true] at hv
  have := hv i (List.mem_toFinset.1 hi)
  rw [l2 i] at this
  simp at this

end Flamingpy.Trial
