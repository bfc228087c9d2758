import Verif.Props.UfErasure
import Verif.Props.Threshold
import Verif.Props.UfThreshold

/-!
# C98: Erasure noise: the exact success rate of Union-Find, and a threshold
-/

namespace Flamingpy.Trial

open Flamingpy Flamingpy.SurfaceCode Flamingpy.UnionFind Flamingpy.Weights Flamingpy.Sim

/-- The erased qubits. -/
def erasedSet (code : Code) (w : V → ℚ) : Finset V := code.syndrome.toFinset.filter fun x => w x = -1

/-- The sets of checked directions whose planes are crossed oddly by some pattern of erased qubits with trivial syndrome. -/
noncomputable def erasedClasses (code : Code) (w : V → ℚ) : Finset (Finset (Fin 3)) :=
  open Classical in (checked code).powerset.filter fun T => ∃ L, OnErased code w L ∧ trivialSyndrome code L ∧
    ∀ i ∈ checked code, sheetParity code L i (lowF code.ec) = decide (i ∈ T)

/-! ### Proofs -/

theorem resClass_add' {code : Code} {F : (V → Bool) → V → Bool}
    (hF : ∀ b b₂, (∀ s ∈ code.stabs, parity b s = parity b₂ s) → F b = F b₂) {T : Finset (Fin 3)} (hT : T ⊆ checked code)
    {L : V → Bool} (l1 : trivialSyndrome code L) (l2 : ∀ j ∈ checked code, sheetParity code L j (lowF code.ec) = decide (j ∈ T)) (b : V → Bool) :
    resClass code F (fun x => xor (b x) (L x)) = symmDiff (resClass code F b) T := by
  have e : F (fun x => xor (b x) (L x)) = F b := by
    apply hF
    intro s hs
    rw [parity_xor, l1 s hs, Bool.xor_false]
  ext i
  unfold resClass
  rw [e, Finset.mem_symmDiff, Finset.mem_filter, Finset.mem_filter]
  by_cases hc : i ∈ checked code
  · have : sheetParity code (fun x => xor (xor (b x) (L x)) (F b x)) i (lowF code.ec) =
        xor (sheetParity code (fun x => xor (b x) (F b x)) i (lowF code.ec)) (decide (i ∈ T)) := by
      rw [sheetParity_xor, sheetParity_xor, sheetParity_xor, l2 i hc]
      cases sheetParity code b i (lowF code.ec) <;> cases sheetParity code (F b) i (lowF code.ec) <;> cases decide (i ∈ T) <;> rfl
    rw [this]
    by_cases hi : i ∈ T <;> cases sheetParity code (fun x => xor (b x) (F b x)) i (lowF code.ec) <;> simp [hi, hc]
  · have : i ∉ T := fun hi => hc (hT hi)
    simp [hc, this]

section
variable {code : Code} (h : IsCode code)
  (hd : ∀ i, boundsOf code.ec code.boundaries i = .periodic → 3 ≤ code.dims i) (bk : Backend) (sp : SetPop)
  (cl : CompLib SNode) (sl : SpanLib SNode (Option V)) (io : IterOrder SNode) (w : V → ℚ) (fuel : ℕ)
  (hf : 2 * (stabGraph bk sp code).edges.length + 1 ≤ fuel) (hB : ∀ x ∈ code.boundPoints, w x ≠ -1) (sanity : Bool)

include h hd hf hB

/-- The recovery as a function of the parities. -/
theorem uf_fun : ∃ F : (V → Bool) → V → Bool, (∀ b b₂, (∀ s ∈ code.stabs, parity b s = parity b₂ s) → F b = F b₂) ∧
    ∀ bits, OnErased code w bits →
      trivialSyndrome code (fun x => xor (bits x) (F bits x)) ∧ OnErased code w (fun x => xor (bits x) (F bits x)) ∧
      correct code (ufDecoder cl sl io fuel (stabGraph bk sp code) w) sanity bits = some (fun x => xor (bits x) (F bits x),
        (planesToCheck code.ec code.boundaries).all fun i => !sheetParity code (fun x => xor (bits x) (F bits x)) i (lowF code.ec)) := by
  refine ⟨fun b x => decide (some x ∈ (ufDecoder cl sl io fuel (stabGraph bk sp code) w b).getD []), fun b b₂ hb => ?_, fun bits hE => ?_⟩
  · simp only [uf_congr h bk sp cl sl io w fuel hb]
  · obtain ⟨R, h1, h2, h3, h4⟩ := C97_recovery h hd bk sp cl sl io w bits fuel hf hE hB
    have hrec := recovery_nodup (PyDict.keys code.graph.nodes) R (fun q hq => h.syndrome_node (h3 q hq).1) h2 bits
    have hmem : ∀ x : V, decide (some x ∈ R.map some) = decide (x ∈ R) := fun x => by simp
    simp only [h1, Option.getD_some, hmem]
    refine ⟨fun s hs => ?_, fun x hx hb => ?_, ?_⟩
    · rw [parity_xor, h4 s hs, Bool.xor_self]
    · by_cases hxR : x ∈ R
      · exact (h3 x hxR).2
      · refine hE x hx ?_
        simpa [hxR] using hb
    · unfold correct
      rw [h1, Option.bind_eq_bind, Option.bind_some, hrec, Option.bind_eq_bind, Option.bind_some, check_eq h.ok.2]
      rfl

/-- C98.  Among the patterns of erased qubits, Union-Find corrects exactly one in as many as there are logical classes of patterns of erased
qubits. -/
theorem C98_count : (accepted code w (ufDecoder cl sl io fuel (stabGraph bk sp code) w) sanity).card * (erasedClasses code w).card =
    2 ^ (erasedSet code w).card := by
  classical
  obtain ⟨F, hF, hc⟩ := uf_fun h hd bk sp cl sl io w fuel hf hB sanity
  set E := erasedSet code w with hE
  set g : Finset V → Finset (Fin 3) := fun S => resClass code F fun x => decide (x ∈ S) with hg
  have hon : ∀ S ∈ E.powerset, OnErased code w fun x => decide (x ∈ S) := by
    intro S hS x hx hb
    have := Finset.mem_powerset.1 hS (of_decide_eq_true hb)
    exact (Finset.mem_filter.1 this).2
  have hacc : accepted code w (ufDecoder cl sl io fuel (stabGraph bk sp code) w) sanity = E.powerset.filter fun S => g S = ∅ := by
    unfold accepted
    ext S
    rw [Finset.mem_filter, Finset.mem_filter]
    refine and_congr_right fun hS => ?_
    rw [(hc _ (hon S hS)).2.2, hg]
    simp only
    rw [← resClass_empty]
    simp
  have hgT : ∀ S ∈ E.powerset, g S ∈ erasedClasses code w := by
    intro S hS
    obtain ⟨c1, c2, -⟩ := hc _ (hon S hS)
    unfold erasedClasses
    rw [Finset.mem_filter]
    refine ⟨Finset.mem_powerset.2 (Finset.filter_subset _ _), _, c2, c1, fun i hi => ?_⟩
    rw [Bool.eq_iff_iff, decide_eq_true_eq, hg]
    simp only [resClass, Finset.mem_filter, hi, true_and]
  have hfib : ∀ T ∈ erasedClasses code w, (E.powerset.filter fun S => g S = T).card = (E.powerset.filter fun S => g S = ∅).card := by
    intro T hT
    unfold erasedClasses at hT
    rw [Finset.mem_filter, Finset.mem_powerset] at hT
    obtain ⟨hT, L, l0, l1, l2⟩ := hT
    set Z := E.filter fun x => L x = true with hZ
    have hsyn : ∀ s ∈ code.stabs, ∀ x ∈ s, x ∈ code.syndrome := fun s hs x hx => ((C25_only_syndrome h).2.1 s hs).2 x hx
    have hLZ : ∀ x ∈ code.syndrome, decide (x ∈ Z) = L x := by
      intro x hx
      cases hl : L x
      · simp [hZ, hl]
      · simp [hZ, hE, erasedSet, hx, hl, l0 x hx hl]
    have z1 : trivialSyndrome code fun x => decide (x ∈ Z) := by
      intro s hs
      rw [← l1 s hs]
      unfold parity
      congr 1
      exact List.map_congr_left fun x hx => hLZ x (hsyn s hs x hx)
    have z2 : ∀ j ∈ checked code, sheetParity code (fun x => decide (x ∈ Z)) j (lowF code.ec) = decide (j ∈ T) := by
      intro j hj
      rw [← l2 j hj]
      unfold sheetParity
      simp only
      rw [← parity_eq, ← parity_eq]
      unfold parity
      congr 1
      exact List.map_congr_left fun x hx => hLZ x (of_decide_eq_true (List.mem_filter.1 hx).2)
    have hg' : ∀ S, g (symmDiff S Z) = symmDiff (g S) T := by
      intro S
      rw [hg]
      simp only
      rw [← resClass_add' hF hT z1 z2]
      congr 1
      funext x
      by_cases h1 : x ∈ S <;> by_cases h2 : x ∈ Z <;> simp [Finset.mem_symmDiff, h1, h2]
    have hsub : ∀ S ∈ E.powerset, symmDiff S Z ∈ E.powerset := by
      intro S hS
      rw [Finset.mem_powerset] at hS ⊢
      intro x hx
      rcases Finset.mem_symmDiff.1 hx with h | h
      · exact hS h.1
      · exact (Finset.mem_filter.1 h.1).1
    refine Finset.card_nbij' (fun S => symmDiff S Z) (fun S => symmDiff S Z) ?_ ?_ ?_ ?_
    · intro S hS
      rw [Finset.mem_coe, Finset.mem_filter] at hS ⊢
      exact ⟨hsub S hS.1, by rw [hg', hS.2]; exact symmDiff_self _⟩
    · intro S hS
      rw [Finset.mem_coe, Finset.mem_filter] at hS ⊢
      exact ⟨hsub S hS.1, by rw [hg', hS.2]; exact bot_symmDiff _⟩
    · intro S _; exact symmDiff_symmDiff_cancel_right _ _
    · intro S _; exact symmDiff_symmDiff_cancel_right _ _
  have hall := Finset.card_eq_sum_card_fiberwise (f := g) (s := E.powerset) (t := erasedClasses code w) hgT
  rw [Finset.sum_congr rfl hfib, Finset.sum_const, Finset.card_powerset, smul_eq_mul] at hall
  rw [hacc, mul_comm, ← hall]

end

/-- Some pattern of erased qubits is a logical operator: it satisfies all stabilizers but is not noiseless. -/
def LogicalErased (code : Code) (w : V → ℚ) : Prop := ∃ L, OnErased code w L ∧ trivialSyndrome code L ∧ ¬ Noiseless code L

theorem empty_class {code : Code} (h : IsCode code) (w : V → ℚ) : ∅ ∈ erasedClasses code w := by
  classical
  unfold erasedClasses
  rw [Finset.mem_filter]
  obtain ⟨L, l1, l2⟩ := lines_exist h ∅ (Finset.empty_subset _)
  have hz : ∀ s : List V, parity (fun _ => false) s = false := by
    intro s
    rw [parity_eq]
    induction s with
    | nil => rfl
    | cons x s ih => simpa using ih
  refine ⟨Finset.mem_powerset.2 (Finset.empty_subset _), fun _ => false, by simp [OnErased], fun s _ => hz s, fun i _ => ?_⟩
  unfold sheetParity
  simp only [Finset.notMem_empty, decide_false]
  rw [← parity_eq]
  exact hz _

theorem noiseless_iff {code : Code} (h : IsCode code) {L : V → Bool} (ht : trivialSyndrome code L) :
    Noiseless code L ↔ ∀ i ∈ checked code, sheetParity code L i (lowF code.ec) = false := by
  have := C57_verdict h L false
  rw [check_eq h.ok.2, Option.some.injEq, List.all_eq_true] at this
  unfold Noiseless
  rw [← this]
  simp [ht, checked]

/-- There is more than one class if and only if some pattern of erased qubits is a logical operator. -/
theorem C98_classes {code : Code} (h : IsCode code) (w : V → ℚ) : (erasedClasses code w).card = 1 ↔ ¬ LogicalErased code w := by
  classical
  rw [Finset.card_eq_one]
  constructor
  · rintro ⟨T, hT⟩ ⟨L, l0, l1, l2⟩
    apply l2
    rw [noiseless_iff h l1]
    have hm : (checked code).filter (fun i => sheetParity code L i (lowF code.ec) = true) ∈ erasedClasses code w := by
      unfold erasedClasses
      rw [Finset.mem_filter]
      refine ⟨Finset.mem_powerset.2 (Finset.filter_subset _ _), L, l0, l1, fun i hi => ?_⟩
      rw [Bool.eq_iff_iff, decide_eq_true_eq, Finset.mem_filter]
      simp [hi]
    have he := empty_class h w
    rw [hT, Finset.mem_singleton] at hm he
    rw [← he, Finset.filter_eq_empty_iff] at hm
    intro i hi
    simpa using hm hi
  · intro hno
    refine ⟨∅, Finset.eq_singleton_iff_unique_mem.2 ⟨empty_class h w, fun T hT => ?_⟩⟩
    unfold erasedClasses at hT
    rw [Finset.mem_filter, Finset.mem_powerset] at hT
    obtain ⟨hT, L, l0, l1, l2⟩ := hT
    by_contra hne
    obtain ⟨i, hi⟩ := Finset.nonempty_iff_ne_empty.2 hne
    refine hno ⟨L, l0, l1, fun hn => ?_⟩
    have := (noiseless_iff h l1).1 hn i (hT hi)
    rw [l2 i (hT hi)] at this
    simp [hi] at this

theorem classes_card_le (code : Code) (w : V → ℚ) : (erasedClasses code w).card ≤ 2 ^ (planesToCheck code.ec code.boundaries).length := by
  classical
  unfold erasedClasses
  refine (Finset.card_filter_le _ _).trans ?_
  rw [Finset.card_powerset, checked_card]

/-! ### Erasure noise -/

/-- The weights when the qubits of `E` are erased: -1 on `E` and 2 elsewhere. -/
def eraseW (E : Finset V) (x : V) : ℚ := if x ∈ E then -1 else 2

theorem onErased_iff {code : Code} {E : Finset V} {L : V → Bool} : OnErased code (eraseW E) L ↔ ∀ x ∈ code.syndrome, L x = true → x ∈ E := by
  unfold OnErased eraseW
  refine forall₃_congr fun x _ _ => ?_
  by_cases hx : x ∈ E
  · simp [hx]
  · simp only [hx, if_false, iff_false]; norm_num

theorem erasedSet_eraseW {code : Code} {E : Finset V} (hE : E ⊆ code.syndrome.toFinset) : erasedSet code (eraseW E) = E := by
  ext x
  unfold erasedSet eraseW
  rw [Finset.mem_filter]
  by_cases hx : x ∈ E
  · simp [hx, List.mem_toFinset.1 (hE hx)]
  · simp only [hx, if_false, iff_false, not_and]; norm_num

open Classical in
/-- The probability that `correct` with the Union-Find decoder returns `False` if every syndrome qubit is erased with probability `q`,
erased qubits are flipped with probability 1/2 and others are not. -/
noncomputable def erasureFailure (X : Libs) (code : Code) (q : ℝ) : ℝ :=
  ∑ E ∈ code.syndrome.toFinset.powerset, patternProb q code.syndrome.toFinset E * ∑ S ∈ E.powerset,
    if ∃ bits', correct code (decoderFunc X code "UF" (eraseW E)) false (fun x => decide (x ∈ S)) = some (bits', false) then (1 / 2) ^ E.card else 0

theorem eraseW_bound {code : Code} (h : IsCode code) (hb : code.boundaries ≠ .open) (w : V → ℚ) : ∀ x ∈ code.boundPoints, w x ≠ -1 := by
  rw [C27_periodic h hb]
  simp

/-- **C98.** The failure probability for erasure noise. -/
theorem C98_failure {code : Code} (h : IsCode code) (hb : code.boundaries ≠ .open)
    (hd : ∀ i, boundsOf code.ec code.boundaries i = .periodic → 3 ≤ code.dims i) (X : Libs) (q : ℝ) :
    erasureFailure X code q = ∑ E ∈ code.syndrome.toFinset.powerset,
      patternProb q code.syndrome.toFinset E * (1 - 1 / ((erasedClasses code (eraseW E)).card : ℝ)) := by
  classical
  unfold erasureFailure
  refine Finset.sum_congr rfl fun E hE => ?_
  rw [Finset.mem_powerset] at hE
  congr 1
  have hB := eraseW_bound h hb (eraseW E)
  have hcount := C98_count h hd X.bk X.sp X.comps X.span X.iter (eraseW E) _ le_rfl hB false
  obtain ⟨F, -, hF⟩ := uf_fun h hd X.bk X.sp X.comps X.span X.iter (eraseW E) _ le_rfl hB false
  rw [erasedSet_eraseW hE] at hcount
  have hdec : decoderFunc X code "UF" (eraseW E) = ufDecoder X.comps X.span X.iter (2 * (stabGraph X.bk X.sp code).edges.length + 1)
      (stabGraph X.bk X.sp code) (eraseW E) := by
    funext b
    rfl
  rw [← Finset.sum_filter, Finset.sum_const, nsmul_eq_mul, hdec]
  have hacc : accepted code (eraseW E) (ufDecoder X.comps X.span X.iter (2 * (stabGraph X.bk X.sp code).edges.length + 1)
      (stabGraph X.bk X.sp code) (eraseW E)) false = E.powerset.filter fun S => ¬ ∃ bits', correct code (ufDecoder X.comps X.span X.iter
        (2 * (stabGraph X.bk X.sp code).edges.length + 1) (stabGraph X.bk X.sp code) (eraseW E)) false (fun x => decide (x ∈ S)) = some (bits', false) := by
    unfold accepted
    have := erasedSet_eraseW hE
    unfold erasedSet at this
    rw [this]
    refine Finset.filter_congr fun S hS => ?_
    rw [Finset.mem_powerset] at hS
    rw [(hF (fun x => decide (x ∈ S)) (onErased_iff.2 fun x _ hx => hS (of_decide_eq_true hx))).2.2]
    simp only [Option.some.injEq, Prod.mk.injEq, exists_and_right, exists_eq', true_and]
    cases (planesToCheck code.ec code.boundaries).all fun i => !sheetParity code (fun x => xor (decide (x ∈ S)) (F (fun x => decide (x ∈ S)) x)) i (lowF code.ec) <;> simp
  rw [hacc] at hcount
  have hsplit := Finset.card_filter_add_card_filter_not (s := E.powerset) (fun S => ∃ bits', correct code (ufDecoder X.comps X.span X.iter
        (2 * (stabGraph X.bk X.sp code).edges.length + 1) (stabGraph X.bk X.sp code) (eraseW E)) false (fun x => decide (x ∈ S)) = some (bits', false))
  rw [Finset.card_powerset] at hsplit
  have e1 := congrArg (Nat.cast (R := ℝ)) hcount
  have e2 := congrArg (Nat.cast (R := ℝ)) hsplit
  push_cast at e1 e2
  have hpos : (0 : ℝ) < (erasedClasses code (eraseW E)).card := by
    exact_mod_cast Finset.card_pos.2 ⟨_, empty_class h _⟩
  have p2 : (0 : ℝ) < 2 ^ E.card := by positivity
  rw [one_div, inv_pow]
  field_simp
  nlinarith

/-- **C98.** The failure probability is at least half the probability that a logical operator is erased, and at most `1 - 1/2^k` times it, where
`k` is the number of checked directions. -/
theorem C98_bounds {code : Code} (h : IsCode code) (hb : code.boundaries ≠ .open)
    (hd : ∀ i, boundsOf code.ec code.boundaries i = .periodic → 3 ≤ code.dims i) (X : Libs) {q : ℝ} (h0 : 0 ≤ q) (h1 : q ≤ 1) :
    1 / 2 * hitProb q code.syndrome.toFinset (fun E => LogicalErased code (eraseW E)) ≤ erasureFailure X code q ∧
    erasureFailure X code q ≤ (1 - (1 / 2) ^ (planesToCheck code.ec code.boundaries).length) *
      hitProb q code.syndrome.toFinset (fun E => LogicalErased code (eraseW E)) := by
  classical
  rw [C98_failure h hb hd X q]
  unfold hitProb
  rw [Finset.mul_sum, Finset.mul_sum]
  have key : ∀ E, (1 : ℝ) ≤ (erasedClasses code (eraseW E)).card ∧
      ((erasedClasses code (eraseW E)).card : ℝ) ≤ 2 ^ (planesToCheck code.ec code.boundaries).length := fun E =>
    ⟨by exact_mod_cast Finset.card_pos.2 ⟨_, empty_class h _⟩, by exact_mod_cast classes_card_le code _⟩
  constructor <;> refine Finset.sum_le_sum fun E _ => ?_
  · have hp := patternProb_nonneg h0 h1 code.syndrome.toFinset E
    obtain ⟨k1, k2⟩ := key E
    split_ifs with hl
    · rw [mul_comm]
      refine mul_le_mul_of_nonneg_left ?_ hp
      have : 2 ≤ (erasedClasses code (eraseW E)).card := by
        have h2 : (erasedClasses code (eraseW E)).card ≠ 1 := fun e => (C98_classes h _).1 e hl
        have h3 : 1 ≤ (erasedClasses code (eraseW E)).card := by exact_mod_cast k1
        omega
      have h4 : (2 : ℝ) ≤ (erasedClasses code (eraseW E)).card := by exact_mod_cast this
      have := one_div_le_one_div_of_le (by norm_num) h4
      linarith
    · rw [mul_zero]
      refine mul_nonneg hp ?_
      rw [sub_nonneg, div_le_one (by linarith)]
      exact k1
  · have hp := patternProb_nonneg h0 h1 code.syndrome.toFinset E
    obtain ⟨k1, k2⟩ := key E
    split_ifs with hl
    · rw [mul_comm]
      refine mul_le_mul_of_nonneg_right ?_ hp
      rw [one_div_pow]
      have := one_div_le_one_div_of_le (by linarith) k2
      linarith
    · rw [(C98_classes h _).2 hl]
      simp

/-- Sets of qubits on trails of at least `d` syndrome qubits. -/
def longTrails (code : Code) (d : ℕ) : Finset (Finset V) :=
  (Finset.Ico (d - 1) code.syndrome.length).biUnion fun k =>
    ((trails code k).filter fun L => L.Nodup ∧ L.toFinset ⊆ code.syndrome.toFinset).biUnion fun L => {L.toFinset}

theorem longTrails_subset {code : Code} {d : ℕ} : ∀ S ∈ longTrails code d, S ⊆ code.syndrome.toFinset := by
  intro S hS
  unfold longTrails at hS
  simp only [Finset.mem_biUnion, Finset.mem_filter, Finset.mem_singleton] at hS
  obtain ⟨k, -, L, ⟨-, -, hL⟩, rfl⟩ := hS
  exact hL

/-- An erased logical operator contains a long trail. -/
theorem logical_trail {code : Code} (h : IsCode code) {d : ℕ} (hd : ∀ i ∈ planesToCheck code.ec code.boundaries, d ≤ code.dims i)
    {E : Finset V} (hE : LogicalErased code (eraseW E)) : ∃ S ∈ longTrails code d, S ⊆ E := by
  classical
  obtain ⟨bits', l0, ht, hne⟩ := hE
  rw [onErased_iff] at l0
  rw [noiseless_iff h ht] at hne
  push Not at hne
  obtain ⟨i, hi, hp⟩ := hne
  have hi : i ∈ planesToCheck code.ec code.boundaries := by simpa [checked] using hi
  set C : Finset V := onesOf code bits' with hC
  have hCmem : ∀ x, x ∈ C ↔ x ∈ code.syndrome ∧ bits' x = true := fun x => mem_onesOf
  have hCb : ∀ x ∈ code.syndrome, bits' x = decide (x ∈ C) := by
    intro x hx
    rw [Bool.eq_iff_iff, decide_eq_true_eq, hCmem]
    exact ⟨fun hh => ⟨hx, hh⟩, fun hh => hh.2⟩
  have htriv : ∀ k, Trails.bd (stabsOf code) C k = 0 := by
    intro k
    have hpar : parity bits' (code.stabs.getD k []) = parity (fun x => decide (x ∈ C)) (code.stabs.getD k []) := by
      unfold parity
      congr 1
      exact List.map_congr_left fun x hx => hCb x (stab_mem_syndrome h hx)
    rw [bd_eq h, ← hpar, b2z_eq_zero]
    by_cases hk : k < code.stabs.length
    · rw [List.getD_eq_getElem _ _ hk]
      exact ht _ (List.getElem_mem hk)
    · rw [List.getD_eq_default _ _ (by omega)]
      rfl
  have hsheet : ∀ D : Finset V, (∀ x ∈ D, x ∈ code.syndrome) →
      b2z (sheetParity code (fun x => decide (x ∈ D)) i (lowF code.ec)) = ∑ x ∈ D, if x i = lowF code.ec then (1 : ZMod 2) else 0 := by
    intro D hD
    rw [h.ok.1.sheet, plane]
    simp only [b2z, decide_eq_true_eq]
    rw [← Finset.sum_filter, ← Finset.sum_filter]
    congr 1
    ext x
    simp only [Finset.mem_filter]
    constructor
    · rintro ⟨⟨h1, h2⟩, h3⟩; exact ⟨h3, h2⟩
    · rintro ⟨h1, h2⟩; exact ⟨⟨(h.ok.1.syndrome x).1 (hD x h1), h2⟩, h1⟩
  have hsheetC : sheetParity code bits' i (lowF code.ec) = sheetParity code (fun x => decide (x ∈ C)) i (lowF code.ec) := by
    rw [← b2z_inj, h.ok.1.sheet, h.ok.1.sheet, plane, plane]
    refine Finset.sum_congr rfl fun x hx => ?_
    rw [hCb x ((h.ok.1.syndrome x).2 (Finset.mem_filter.1 hx).1)]
  have hodd : ∑ x ∈ C, (if x i = lowF code.ec then (1 : ZMod 2) else 0) = 1 := by
    rw [← hsheet C fun x hx => ((hCmem x).1 hx).1, ← hsheetC]
    have : sheetParity code bits' i (lowF code.ec) = true := by simpa using hp
    rw [this]
    rfl
  obtain ⟨x, s, L, k1, k2, k3, k4, k5, k6⟩ := Trails.odd_trail (stabsOf code) (fun x => if x i = lowF code.ec then (1 : ZMod 2) else 0) C.card C
    le_rfl (fun x hx => stabsOf_card h ((hCmem x).1 hx).1) htriv hodd
  set T : Finset V := (x :: L).toFinset with hT
  have hTs : ∀ y ∈ T, y ∈ code.syndrome := fun y hy => ((hCmem y).1 (k3 y (List.mem_toFinset.1 hy))).1
  have hTE : T ⊆ E := fun y hy => by
    have := (hCmem y).1 (k3 y (List.mem_toFinset.1 hy))
    exact l0 y this.1 this.2
  have hTsub : T ⊆ code.syndrome.toFinset := fun y hy => List.mem_toFinset.2 (hTs y hy)
  have hTcard : T.card = (x :: L).length := List.toFinset_card_of_nodup k2
  have htT : trivialSyndrome code fun x => decide (x ∈ T) := by
    intro s hs
    obtain ⟨k, hk, rfl⟩ := List.getElem_of_mem hs
    have : parity (fun x => decide (x ∈ T)) (code.stabs.getD k []) = false := by
      rw [← b2z_eq_zero, ← bd_eq h]
      exact k5 k
    rwa [List.getD_eq_getElem _ _ hk] at this
  have hckT : checkCorrection code (fun x => decide (x ∈ T)) false = some false := by
    rw [check_eq h.ok.2, Option.some.injEq, List.all_eq_false]
    refine ⟨i, hi, ?_⟩
    have : b2z (sheetParity code (fun x => decide (x ∈ T)) i (lowF code.ec)) ≠ 0 := by
      rw [hsheet T hTs, k6]
      decide
    rw [b2z_ne_zero] at this
    simp [this]
  obtain ⟨j, hj, hle⟩ := C33_lower h htT hckT
  have hw : weight code (fun x => decide (x ∈ T)) = T.card := by
    unfold weight
    rw [List.countP_eq_length_filter, ← List.toFinset_card_of_nodup (h.ok.1.syndromeNd.filter _)]
    congr 1
    ext y
    simp only [List.mem_toFinset, List.mem_filter, decide_eq_true_eq, and_iff_right_iff_imp]
    exact hTs y
  have hlen : d ≤ L.length + 1 := by
    have := hd j hj
    rw [hw, hTcard, List.length_cons] at hle
    omega
  have hmax : L.length + 1 ≤ code.syndrome.length := by
    have := Finset.card_le_card hTsub
    rw [hTcard, List.toFinset_card_of_nodup h.ok.1.syndromeNd, List.length_cons] at this
    exact this
  refine ⟨T, ?_, hTE⟩
  unfold longTrails
  simp only [Finset.mem_biUnion, Finset.mem_filter, Finset.mem_singleton, Finset.mem_Ico]
  exact ⟨L.length, ⟨by omega, by omega⟩, x :: L, ⟨mem_trails k1 k2 (fun y hy => hTs y (List.mem_toFinset.2 hy)) k4, k2, hTsub⟩, rfl⟩

theorem longTrails_sum {code : Code} (h : IsCode code) {q : ℝ} (h0 : 0 ≤ q) (h1 : 5 * q < 1) (d : ℕ) :
    ∑ S ∈ longTrails code d, q ^ S.card ≤ 2 * code.syndrome.length / 5 * ((5 * q) ^ d / (1 - 5 * q)) := by
  have hnn : ∀ S : Finset V, 0 ≤ q ^ S.card := fun S => pow_nonneg h0 _
  have hterm : ∀ k, ∑ S ∈ ((trails code k).filter fun L => L.Nodup ∧ L.toFinset ⊆ code.syndrome.toFinset).biUnion (fun L => {L.toFinset}), q ^ S.card ≤
      2 * code.syndrome.length / 5 * (5 * q) ^ (k + 1) := by
    intro k
    refine (sum_biUnion_le _ _ _ hnn).trans ?_
    have hL : ∀ L ∈ (trails code k).filter fun L => L.Nodup ∧ L.toFinset ⊆ code.syndrome.toFinset,
        ∑ S ∈ ({L.toFinset} : Finset (Finset V)), q ^ S.card ≤ q ^ (k + 1) := by
      intro L hL
      rw [Finset.mem_filter] at hL
      rw [Finset.sum_singleton, List.toFinset_card_of_nodup hL.2.1, trails_length hL.1]
    refine (Finset.sum_le_sum hL).trans ?_
    rw [Finset.sum_const, nsmul_eq_mul]
    have hcard : (((trails code k).filter fun L => L.Nodup ∧ L.toFinset ⊆ code.syndrome.toFinset).card : ℝ) ≤ 2 * code.syndrome.length * 5 ^ k := by
      exact_mod_cast (Finset.card_filter_le _ _).trans (trails_card h k)
    calc _ ≤ 2 * code.syndrome.length * 5 ^ k * q ^ (k + 1) := mul_le_mul_of_nonneg_right hcard (by positivity)
      _ = 2 * code.syndrome.length / 5 * (5 * q) ^ (k + 1) := by
          rw [mul_pow 5, pow_succ 5]
          ring
  unfold longTrails
  refine (sum_biUnion_le _ _ _ hnn).trans ((Finset.sum_le_sum fun k _ => hterm k).trans ?_)
  rw [← Finset.mul_sum]
  refine mul_le_mul_of_nonneg_left ?_ (by positivity)
  have hr10 : 0 ≤ 5 * q := by positivity
  have h2 : ∑ k ∈ Finset.Ico (d - 1) code.syndrome.length, (5 * q) ^ (k + 1) ≤ (5 * q) ^ d * ∑ k ∈ Finset.range code.syndrome.length, (5 * q) ^ k := by
    rw [Finset.sum_Ico_eq_sum_range, Finset.mul_sum]
    refine (Finset.sum_le_sum_of_subset_of_nonneg (Finset.range_subset_range.2 (Nat.sub_le _ _)) fun _ _ _ => by positivity).trans
      (Finset.sum_le_sum fun k _ => ?_)
    rw [← pow_add]
    exact pow_le_pow_of_le_one hr10 h1.le (by omega)
  refine h2.trans ?_
  rw [div_eq_mul_inv]
  refine mul_le_mul_of_nonneg_left ?_ (by positivity)
  have := (summable_geometric_of_lt_one hr10 h1).sum_le_tsum (Finset.range code.syndrome.length) fun k _ => by positivity
  rwa [tsum_geometric_of_lt_one hr10 h1] at this

/-- **C98.** If every syndrome qubit is erased with a probability below 1/5, the probability that a logical operator is erased decreases
exponentially with the size of the code, whatever its boundaries. -/
theorem C98_bound {code : Code} (h : IsCode code) {q : ℝ} (h0 : 0 ≤ q) (h1 : q < 1 / 5) {d : ℕ}
    (hd : ∀ i ∈ planesToCheck code.ec code.boundaries, d ≤ code.dims i) :
    hitProb q code.syndrome.toFinset (fun E => LogicalErased code (eraseW E)) ≤
      2 * code.syndrome.length / 5 * ((5 * q) ^ d / (1 - 5 * q)) :=
  (hitProb_union h0 (by linarith) _ longTrails_subset fun _ hE => logical_trail h hd hE).trans (longTrails_sum h h0 (by linarith) d)

/-- **C98.** Threshold of Union-Find for erasures: if every syndrome qubit is erased with a probability below 1/5, independently, then for codes
without open boundaries whose sizes are between `d` and `m * d` the probability that some pattern of flipped erased qubits is not corrected, for
some behaviour of the libraries, goes to zero as `d` grows; so does the failure probability. -/
theorem C98_threshold {q : ℝ} (h0 : 0 ≤ q) (h1 : q < 1 / 5) (m : ℕ) {ε : ℝ} (hε : 0 < ε) : ∃ d₀ : ℕ, ∀ d, d₀ ≤ d → ∀ code : Code, IsCode code →
    code.boundaries ≠ .open → (∀ i, d ≤ code.dims i ∧ code.dims i ≤ m * d) →
      hitProb q code.syndrome.toFinset (fun E => ∃ (X : Libs) (sanity : Bool) (bits : V → Bool), (∀ x ∈ code.syndrome, bits x = true → x ∈ E) ∧
        ¬ ∃ bits', correct code (decoderFunc X code "UF" (eraseW E)) sanity bits = some (bits', true)) < ε ∧
      ∀ X : Libs, erasureFailure X code q < ε := by
  obtain ⟨d₀, hd₀⟩ := rate_limit (r := q / 2) (by linarith) (by linarith) m hε
  refine ⟨max d₀ 3, fun d hd code h hb hdims => ?_⟩
  have h3 := periodic_three (code := code) (le_of_max_le_right hd) fun i _ => (hdims i).1
  have hlt : hitProb q code.syndrome.toFinset (fun E => LogicalErased code (eraseW E)) < ε := by
    refine (C98_bound h h0 h1 fun i _ => (hdims i).1).trans_lt ?_
    have := hd₀ d (le_of_max_le_left hd) code h hdims
    rwa [show 10 * (q / 2) = 5 * q by ring] at this
  refine ⟨lt_of_le_of_lt ?_ hlt, fun X => ?_⟩
  · refine hitProb_mono h0 (by linarith) _ fun E _ ⟨X, sanity, bits, hE, hf⟩ => ?_
    by_contra hno
    refine hf ((C97_iff h h3 X.bk X.sp X.comps X.span X.iter (eraseW E) _ le_rfl (eraseW_bound h hb _) sanity).2 (fun L hL ht => ?_) bits
      (onErased_iff.2 hE))
    by_contra hn
    exact hno ⟨L, hL, ht, hn⟩
  · refine lt_of_le_of_lt ((C98_bounds h hb h3 X h0 (by linarith)).2.trans ?_) hlt
    have hnn : 0 ≤ hitProb q code.syndrome.toFinset (fun E => LogicalErased code (eraseW E)) := by
      unfold hitProb
      refine Finset.sum_nonneg fun E _ => ?_
      split_ifs
      · exact patternProb_nonneg h0 (by linarith) _ _
      · exact le_rfl
    have : (0 : ℝ) ≤ (1 / 2) ^ (planesToCheck code.ec code.boundaries).length := by positivity
    nlinarith

/-- **C98.** The number of classes is a power of two, at most `2^k`, and `2^k` if every syndrome qubit is erased. -/
theorem C98_number {code : Code} (h : IsCode code) (hd : ∀ i, boundsOf code.ec code.boundaries i = .periodic → 3 ≤ code.dims i) (w : V → ℚ) :
    ((∀ x ∈ code.boundPoints, w x ≠ -1) → ∃ r ≤ (planesToCheck code.ec code.boundaries).length, (erasedClasses code w).card = 2 ^ r) ∧
    ((∀ x ∈ code.syndrome, w x = -1) → (erasedClasses code w).card = 2 ^ (planesToCheck code.ec code.boundaries).length) := by
  classical
  constructor
  · intro hB
    obtain ⟨X, -⟩ := libs_exist .networkx
    have hc := C98_count h hd X.bk X.sp X.comps X.span X.iter w _ le_rfl hB false
    obtain ⟨r, -, hr⟩ := (Nat.dvd_prime_pow Nat.prime_two).1 (Dvd.intro_left _ hc)
    refine ⟨r, ?_, hr⟩
    have := classes_card_le code w
    rw [hr] at this
    exact (Nat.pow_le_pow_iff_right (by norm_num)).1 this
  · intro hall
    have : erasedClasses code w = (checked code).powerset := by
      unfold erasedClasses
      rw [Finset.filter_eq_self]
      intro T hT
      obtain ⟨L, l1, l2⟩ := lines_exist h T (Finset.mem_powerset.1 hT)
      exact ⟨L, fun x hx _ => hall x hx, l1, fun i _ => l2 i⟩
    rw [this, Finset.card_powerset, checked_card]

/-! ### The hypotheses can be met -/

-- if all qubits of a toric code of size four are erased, one in four patterns is corrected
example (X : Libs) : ∃ code, IsCode code ∧ code.boundaries = .toric ∧ code.dims = (fun _ => 4) ∧
    (accepted code (fun _ => -1) (decoderFunc X code "UF" fun _ => -1) false).card * 4 = 2 ^ code.syndrome.length := by
  obtain ⟨code, hc⟩ := C54_constructor_total idOrder .primal .toric (dims := fun _ => 4) (by simp) none
  obtain ⟨hc, hd, hec, hb⟩ := hc
  have h : IsCode code := ⟨idOrder, .primal, .toric, _, none, by simp, hc⟩
  have hd3 : ∀ i, boundsOf code.ec code.boundaries i = .periodic → 3 ≤ code.dims i := fun i _ => by simp [hd]
  have hc := C98_count h hd3 X.bk X.sp X.comps X.span X.iter (fun _ => -1) _ le_rfl (by rw [C27_periodic h (by rw [hb]; decide)]; simp) false
  rw [(C98_number h hd3 _).2 (fun _ _ => rfl), hb, (C96_number code.ec).2.1] at hc
  refine ⟨code, h, hb, hd, ?_⟩
  have he : (erasedSet code fun _ => -1).card = code.syndrome.length := by
    rw [← List.toFinset_card_of_nodup h.ok.1.syndromeNd]
    unfold erasedSet
    rw [Finset.filter_true_of_mem fun _ _ => rfl]
  rw [he] at hc
  exact hc

-- codes of every large size, one qubit in ten erased: the failure probability is small and not zero
example : ∃ d₀ : ℕ, ∀ d, d₀ ≤ d → ∃ code, IsCode code ∧ code.dims = (fun _ => d) ∧ ∀ X : Libs,
    0 < erasureFailure X code (1 / 10) ∧ erasureFailure X code (1 / 10) < 1 / 1000 := by
  classical
  obtain ⟨d₀, hd₀⟩ := C98_threshold (q := 1 / 10) (by norm_num) (by norm_num) 1 (ε := 1 / 1000) (by norm_num)
  refine ⟨max d₀ 3, fun d hd => ?_⟩
  have h3 : 3 ≤ d := le_of_max_le_right hd
  obtain ⟨code, hc⟩ := C54_constructor_total idOrder .dual .periodic (dims := fun _ => d) (by simp; omega) none
  obtain ⟨hc, hdim, hec, hb⟩ := hc
  have h : IsCode code := ⟨idOrder, .dual, .periodic, _, none, by simp; omega, hc⟩
  refine ⟨code, h, hdim, fun X => ⟨?_, (hd₀ d (le_of_max_le_left hd) code h (by rw [hb]; decide) (by simp [hdim])).2 X⟩⟩
  have hd3 : ∀ i, boundsOf code.ec code.boundaries i = .periodic → 3 ≤ code.dims i := fun i _ => by simp [hdim, h3]
  refine lt_of_lt_of_le ?_ (C98_bounds h (by rw [hb]; decide) hd3 X (by norm_num) (by norm_num)).1
  refine mul_pos (by norm_num) ?_
  -- all qubits are erased with a positive probability
  obtain ⟨i, hi⟩ : ∃ i, i ∈ planesToCheck code.ec code.boundaries := by
    rw [hb, hec]; exact ⟨_, List.mem_cons_self⟩
  have hlog : LogicalErased code (eraseW code.syndrome.toFinset) := by
    obtain ⟨L, l1, l2, -⟩ := C33_exists h hi
    refine ⟨L, onErased_iff.2 fun x hx _ => List.mem_toFinset.2 hx, l1, fun hn => ?_⟩
    have := ((C57_verdict h L false).2 hn).2
    rw [l2] at this
    cases this
  unfold hitProb
  refine lt_of_lt_of_le ?_ (Finset.single_le_sum (f := fun B => if LogicalErased code (eraseW B) then patternProb (1 / 10) code.syndrome.toFinset B else 0)
    (fun B _ => ?_) (Finset.mem_powerset_self _))
  · simp only [if_pos hlog, patternProb]
    positivity
  · split_ifs
    · exact patternProb_nonneg (by norm_num) (by norm_num) _ _
    · exact le_rfl

end Flamingpy.Trial
