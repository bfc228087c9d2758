import Verif.Props.ErrorRate

/-!
# C96: logical classes, and noise that carries no information
-/

namespace Flamingpy.Trial

open Flamingpy Flamingpy.SurfaceCode Flamingpy.UnionFind Flamingpy.Weights Flamingpy.Sim MeasureTheory ProbabilityTheory

/-- The directions of the planes inspected by `check_correction`. -/
def checked (code : Code) : Finset (Fin 3) := (planesToCheck code.ec code.boundaries).toFinset

/-! ### Proofs -/

theorem checked_card (code : Code) : (checked code).card = (planesToCheck code.ec code.boundaries).length := by
  unfold checked
  apply List.toFinset_card_of_nodup
  cases code.ec <;> cases code.boundaries <;> decide

/-- The weights after the call and the recovery as a function of the stabilizer parities. -/
theorem recovery_fun {code : Code} (h : IsCode code) (X : Libs) {name : String} {o : Opts} {a : Weights.Attrs}
    (hv : Valid code name o a) (weights : V → Option ℝ) (sanity : Bool) :
    ∃ (F : (V → Bool) → V → Bool) (w : V → Option ℝ), (∀ b b₂, (∀ s ∈ code.stabs, parity b s = parity b₂ s) → F b = F b₂) ∧
      ∀ b, trivialSyndrome code (fun x => xor (b x) (F b x)) ∧
        correctAll X code name o a weights sanity b = some (fun x => xor (b x) (F b x), w,
          (planesToCheck code.ec code.boundaries).all fun i => !sheetParity code (fun x => xor (b x) (F b x)) i (lowF code.ec)) := by
  obtain ⟨w, hw, hs, hpos, -, -⟩ := weights_ok h hv weights
  have hn : name = "MWPM" ∨ name = "UF" := by rcases hv with ⟨h, -⟩ | ⟨h, -⟩ <;> simp [h]
  refine ⟨fun b x => decide (some x ∈ (decoderFunc X code name (fun q => X.float.fl ((w q).getD 0)) b).getD []), w, ?_, ?_⟩
  · intro b b₂ hb
    simp only [decoder_congr h X name _ hb]
  · intro b
    obtain ⟨R, bits', h1, h2, h3, h4, h5⟩ := decoder_clears h X hn (w := fun q => X.float.fl ((w q).getD 0))
      (fun e q hq => X.float.nonneg _ (hpos e q hq)) b
    rw [recovery_syndrome h h2 h3] at h4
    simp only [h1, Option.getD_some]
    have e := Option.some.inj h4
    refine ⟨by rw [e]; exact h5, ?_⟩
    rw [correctAll_of hw hs]
    unfold correct
    rw [h1, Option.bind_eq_bind, Option.bind_some, recovery_syndrome h h2 h3, Option.bind_eq_bind, Option.bind_some, check_eq h.ok.2]
    rfl

theorem sheetParity_xor (code : Code) (b c : V → Bool) (i : Fin 3) (f : ℤ) :
    sheetParity code (fun x => xor (b x) (c x)) i f = xor (sheetParity code b i f) (sheetParity code c i f) := by
  unfold sheetParity
  simp only
  generalize ((sliceCoords (PyDict.keys code.graph.nodes) i f).dedup.filter fun p => decide (p ∈ code.syndrome)) = l
  rw [← parity_eq, ← parity_eq, ← parity_eq, parity_xor]

/-- In each checked direction there is a pattern with trivial syndrome that crosses the planes of this direction once and those of the other
directions not at all. -/
theorem line_exists {code : Code} (h : IsCode code) {i : Fin 3} (hi : i ∈ checked code) :
    ∃ L : V → Bool, trivialSyndrome code L ∧ ∀ j, sheetParity code L j (lowF code.ec) = decide (j = i) := by
  obtain ⟨hok, hd⟩ := h.ok
  obtain ⟨h1, h2⟩ := checked_axis _ _ i (List.mem_toFinset.1 hi)
  obtain ⟨c0, hc0⟩ : ∃ c0, c0 ∈ cells code.ec code.dims (boundsOf code.ec code.boundaries) := by
    refine ⟨fun _ => match code.ec with
      | .primal => 1
      | .dual => 2, mem_cells.2 ⟨?_, ?_⟩⟩
    · intro j
      have := hd j
      cases code.ec <;> simp only [inAxis] <;> split <;> omega
    · intro j; cases code.ec <;> rfl
  have e : (fun x => b2z (decide (line code.ec c0 i x ≠ 0))) = line code.ec c0 i := by
    funext x; unfold line b2z; split_ifs <;> simp_all
  refine ⟨fun x => decide (line code.ec c0 i x ≠ 0), ?_, fun j => ?_⟩
  · show ∀ s ∈ code.stabs, _
    rw [hok.trivial_iff, e]
    exact line_par hd hc0 i h2
  · rw [← b2z_inj, hok.sheet, e]
    by_cases hj : j = i
    · subst hj
      rw [line_plane hc0 j]
      · simp [b2z]
      · exact ((faces_iff (ec := code.ec) (hd j) h2 (lowF code.ec)).2 ⟨0, by have := hd j; omega, by simp⟩).1
      · cases code.ec <;> rfl
    · rw [decide_eq_false hj]
      unfold plane
      refine Finset.sum_eq_zero fun x hx => ?_
      obtain ⟨hq, hx⟩ := Finset.mem_filter.1 hx
      unfold line
      rw [if_neg]
      rintro ⟨_, hl⟩
      have hp := (mem_cells.1 hc0).2 j
      rw [← hl j hj, hx] at hp
      have := par_ne code.ec hp
      apply this
      cases code.ec <;> rfl

/-- The same for every set of checked directions. -/
theorem lines_exist {code : Code} (h : IsCode code) (T : Finset (Fin 3)) : T ⊆ checked code →
    ∃ L : V → Bool, trivialSyndrome code L ∧ ∀ j, sheetParity code L j (lowF code.ec) = decide (j ∈ T) := by
  induction T using Finset.induction_on with
  | empty =>
    intro _
    have hz : ∀ s : List V, parity (fun _ => false) s = false := by
      intro s
      rw [parity_eq]
      induction s with
      | nil => rfl
      | cons x s ih => simpa using ih
    refine ⟨fun _ => false, fun s _ => hz s, fun j => ?_⟩
    unfold sheetParity
    simp only [Finset.notMem_empty, decide_false]
    rw [← parity_eq]
    exact hz _
  | insert i T hi ih =>
    intro hT
    obtain ⟨L, l1, l2⟩ := ih fun x hx => hT (Finset.mem_insert_of_mem hx)
    obtain ⟨M, m1, m2⟩ := line_exists h (hT (Finset.mem_insert_self i T))
    refine ⟨fun x => xor (L x) (M x), fun s hs => ?_, fun j => ?_⟩
    · rw [parity_xor, l1 s hs, m1 s hs]; rfl
    · rw [sheetParity_xor, l2, m2]
      by_cases hj : j = i
      · subst hj; simp [hi]
      · simp [hj]

open Classical in
/-- The class of the residual error. -/
noncomputable def resClass (code : Code) (F : (V → Bool) → V → Bool) (b : V → Bool) : Finset (Fin 3) :=
  (checked code).filter fun i => sheetParity code (fun x => xor (b x) (F b x)) i (lowF code.ec) = true

theorem resClass_empty (code : Code) (F : (V → Bool) → V → Bool) (b : V → Bool) :
    ((planesToCheck code.ec code.boundaries).all fun i => !sheetParity code (fun x => xor (b x) (F b x)) i (lowF code.ec)) = true ↔
      resClass code F b = ∅ := by
  unfold resClass checked
  rw [Finset.filter_eq_empty_iff, List.all_eq_true]
  simp

theorem resClass_add {code : Code} {F : (V → Bool) → V → Bool}
    (hF : ∀ b b₂, (∀ s ∈ code.stabs, parity b s = parity b₂ s) → F b = F b₂) {T : Finset (Fin 3)} (hT : T ⊆ checked code)
    {L : V → Bool} (l1 : trivialSyndrome code L) (l2 : ∀ j, sheetParity code L j (lowF code.ec) = decide (j ∈ T)) (b : V → Bool) :
    resClass code F (fun x => xor (b x) (L x)) = symmDiff (resClass code F b) T := by
  have e : F (fun x => xor (b x) (L x)) = F b := by
    apply hF
    intro s hs
    rw [parity_xor, l1 s hs, Bool.xor_false]
  ext i
  unfold resClass
  rw [e, Finset.mem_symmDiff, Finset.mem_filter, Finset.mem_filter]
  have : sheetParity code (fun x => xor (xor (b x) (L x)) (F b x)) i (lowF code.ec) =
      xor (sheetParity code (fun x => xor (b x) (F b x)) i (lowF code.ec)) (decide (i ∈ T)) := by
    rw [sheetParity_xor, sheetParity_xor, sheetParity_xor, l2]
    cases sheetParity code b i (lowF code.ec) <;> cases sheetParity code (F b) i (lowF code.ec) <;> cases decide (i ∈ T) <;> rfl
  rw [this]
  by_cases hi : i ∈ T
  · have := hT hi
    cases sheetParity code (fun x => xor (b x) (F b x)) i (lowF code.ec) <;> simp [hi, this]
  · cases sheetParity code (fun x => xor (b x) (F b x)) i (lowF code.ec) <;> simp [hi]

/-! ### The property -/

/-- **C96.** For every code there is one pattern `L T` with trivial syndrome for every set `T` of checked directions such that, whatever the decoder,
the weights, the libraries and the errors are, `correct` accepts exactly one of the patterns `bits + L T`: no decoder tells them apart. -/
theorem C96_classes {code : Code} (h : IsCode code) : ∃ L : Finset (Fin 3) → V → Bool, (∀ T ⊆ checked code, trivialSyndrome code (L T)) ∧
    ∀ (X : Libs) (name : String) (o : Opts) (a : Weights.Attrs), Valid code name o a →
      ∀ (weights : V → Option ℝ) (sanity : Bool) (bits : V → Bool),
        ∃! T, T ⊆ checked code ∧ ∃ bits' w,
          correctAll X code name o a weights sanity (fun x => xor (bits x) (L T x)) = some (bits', w, true) := by
  choose L hL using lines_exist h
  refine ⟨fun T => if hT : T ⊆ checked code then L T hT else fun _ => false, fun T hT => ?_, ?_⟩
  · simp only [dif_pos hT]; exact (hL T hT).1
  intro X name o a hv weights sanity bits
  obtain ⟨F, w, hF, hc⟩ := recovery_fun h X hv weights sanity
  have key : ∀ T (hT : T ⊆ checked code), (∃ bits' w,
      correctAll X code name o a weights sanity (fun x => xor (bits x) (L T hT x)) = some (bits', w, true)) ↔ T = resClass code F bits := by
    intro T hT
    rw [(hc _).2]
    have := resClass_empty code F (fun x => xor (bits x) (L T hT x))
    rw [resClass_add hF hT (hL T hT).1 (hL T hT).2] at this
    constructor
    · rintro ⟨b', w', e⟩
      have := this.1 (Prod.mk.inj (Prod.mk.inj (Option.some.inj e)).2).2
      exact (symmDiff_eq_bot.1 this).symm
    · intro e
      rw [this.2 (by rw [e]; exact symmDiff_self _)]
      exact ⟨_, _, rfl⟩
  have hsub : resClass code F bits ⊆ checked code := Finset.filter_subset _ _
  refine ⟨resClass code F bits, ⟨hsub, ?_⟩, ?_⟩
  · simp only [dif_pos hsub]
    exact (key _ hsub).2 rfl
  · rintro T ⟨hT, ht⟩
    simp only [dif_pos hT] at ht
    exact (key _ hT).1 ht

/-- **C96.** If every qubit is flipped with probability 1/2 then, with either decoder, any valid weights and whatever the libraries choose, `correct`
returns `False` with probability exactly `1 - 1/2^k`, where `k` is the number of checked directions. -/
theorem C96_half {code : Code} (h : IsCode code) (X : Libs) {name : String} {o : Opts} {a : Weights.Attrs} (hv : Valid code name o a) :
    failureRate X code name o a (1 / 2) = 1 - (1 / 2) ^ (planesToCheck code.ec code.boundaries).length := by
  classical
  obtain ⟨F, w, hF, hc⟩ := recovery_fun h X hv (fun _ => none) false
  set n := code.syndrome.toFinset.card with hn
  have hpow : ∀ S ∈ code.syndrome.toFinset.powerset, ((1 : ℝ) / 2) ^ S.card * (1 - 1 / 2) ^ (n - S.card) = (1 / 2) ^ n := by
    intro S hS
    have := Finset.card_le_card (Finset.mem_powerset.1 hS)
    rw [show (1 : ℝ) - 1 / 2 = 1 / 2 by norm_num, ← pow_add]
    congr 1
    omega
  have hfail : ∀ b, (∃ bits' w, correctAll X code name o a (fun _ => none) false b = some (bits', w, false)) ↔ ¬ resClass code F b = ∅ := by
    intro b
    rw [(hc b).2, ← resClass_empty]
    constructor
    · rintro ⟨b', w', e⟩
      rw [(Prod.mk.inj (Prod.mk.inj (Option.some.inj e)).2).2]
      decide
    · intro hne
      rw [Bool.not_eq_true] at hne
      rw [hne]
      exact ⟨_, _, rfl⟩
  set g : Finset V → Finset (Fin 3) := fun S => resClass code F fun x => decide (x ∈ S) with hg
  have hrate : failureRate X code name o a (1 / 2) =
      ((code.syndrome.toFinset.powerset.filter fun S => ¬ g S = ∅).card : ℝ) * (1 / 2) ^ n := by
    unfold failureRate
    rw [← Finset.sum_filter, ← nsmul_eq_mul, ← Finset.sum_const]
    refine Finset.sum_congr (Finset.filter_congr fun S _ => hfail _) fun S hS => hpow S (Finset.mem_filter.1 hS).1
  have hgT : ∀ S ∈ code.syndrome.toFinset.powerset, g S ∈ (checked code).powerset := fun S _ => Finset.mem_powerset.2 (Finset.filter_subset _ _)
  have hfib : ∀ T ∈ (checked code).powerset, (code.syndrome.toFinset.powerset.filter fun S => g S = T).card =
      (code.syndrome.toFinset.powerset.filter fun S => g S = ∅).card := by
    intro T hT
    rw [Finset.mem_powerset] at hT
    obtain ⟨L, l1, l2⟩ := lines_exist h T hT
    set Z := code.syndrome.toFinset.filter fun x => L x = true with hZ
    have hsyn : ∀ s ∈ code.stabs, ∀ x ∈ s, x ∈ code.syndrome := fun s hs x hx => ((C25_only_syndrome h).2.1 s hs).2 x hx
    have hLZ : ∀ x ∈ code.syndrome, decide (x ∈ Z) = L x := by
      intro x hx
      cases hl : L x <;> simp [hZ, hx, hl]
    have z1 : trivialSyndrome code fun x => decide (x ∈ Z) := by
      intro s hs
      rw [← l1 s hs]
      unfold parity
      congr 1
      exact List.map_congr_left fun x hx => hLZ x (hsyn s hs x hx)
    have z2 : ∀ j, sheetParity code (fun x => decide (x ∈ Z)) j (lowF code.ec) = decide (j ∈ T) := by
      intro j
      rw [← l2 j]
      unfold sheetParity
      simp only
      rw [← parity_eq, ← parity_eq]
      unfold parity
      congr 1
      exact List.map_congr_left fun x hx => hLZ x (of_decide_eq_true (List.mem_filter.1 hx).2)
    have hg' : ∀ S, g (symmDiff S Z) = symmDiff (g S) T := by
      intro S
      rw [hg]
      simp only
      rw [← resClass_add hF hT z1 z2]
      congr 1
      funext x
      by_cases h1 : x ∈ S <;> by_cases h2 : x ∈ Z <;> simp [Finset.mem_symmDiff, h1, h2]
    have hsub : ∀ S ∈ code.syndrome.toFinset.powerset, symmDiff S Z ∈ code.syndrome.toFinset.powerset := by
      intro S hS
      rw [Finset.mem_powerset] at hS ⊢
      intro x hx
      rcases Finset.mem_symmDiff.1 hx with h | h
      · exact hS h.1
      · exact (Finset.mem_filter.1 h.1).1
    refine Finset.card_nbij' (fun S => symmDiff S Z) (fun S => symmDiff S Z) ?_ ?_ ?_ ?_
    · intro S hS
      rw [Finset.mem_coe, Finset.mem_filter] at hS ⊢
      exact ⟨hsub S hS.1, by rw [hg', hS.2]; exact symmDiff_self _⟩
    · intro S hS
      rw [Finset.mem_coe, Finset.mem_filter] at hS ⊢
      exact ⟨hsub S hS.1, by rw [hg', hS.2]; exact bot_symmDiff _⟩
    · intro S _; exact symmDiff_symmDiff_cancel_right _ _
    · intro S _; exact symmDiff_symmDiff_cancel_right _ _
  have hall := Finset.card_eq_sum_card_fiberwise (f := g) (s := code.syndrome.toFinset.powerset) (t := (checked code).powerset) hgT
  rw [Finset.sum_congr rfl hfib, Finset.sum_const, Finset.card_powerset, Finset.card_powerset, checked_card, ← hn, smul_eq_mul] at hall
  have hsplit := Finset.card_filter_add_card_filter_not (s := code.syndrome.toFinset.powerset) (fun S => g S = ∅)
  rw [Finset.card_powerset, ← hn] at hsplit
  rw [hrate]
  set k := (planesToCheck code.ec code.boundaries).length
  set good := (code.syndrome.toFinset.powerset.filter fun S => g S = ∅).card
  set bad := (code.syndrome.toFinset.powerset.filter fun S => ¬ g S = ∅).card
  have e1 : (2 : ℝ) ^ n = 2 ^ k * good := by exact_mod_cast hall
  have e2 : (good : ℝ) + bad = 2 ^ n := by exact_mod_cast hsplit
  have p1 : (0 : ℝ) < 2 ^ k := by positivity
  have p2 : (0 : ℝ) < 2 ^ n := by positivity
  rw [one_div, inv_pow, inv_pow]
  have e3 : (good : ℝ) = 2 ^ n * (2 ^ k)⁻¹ := by rw [e1]; field_simp
  have e4 : (bad : ℝ) = 2 ^ n - 2 ^ n * (2 ^ k)⁻¹ := by rw [← e3]; linarith
  rw [e4]
  field_simp

/-- **C96.** The number of checked directions: one with open boundaries, two with toric and three with periodic ones. -/
theorem C96_number (ec : Ec) : (planesToCheck ec Boundaries.open).length = 1 ∧ (planesToCheck ec .toric).length = 2 ∧
    (planesToCheck ec .periodic).length = 3 := by
  cases ec <;> decide

variable {Ω : Type*} [MeasurableSpace Ω] {μ : Measure Ω} [IsProbabilityMeasure μ]

/-- **C96.** A simulation of noise with error probability 1/2 reports on average `trials * (1 - 1/2^k)` errors, for codes of every size. -/
theorem C96_simulation {code : Code} (h : IsCode code) (X : Libs) {name : String} (hn : name = "MWPM" ∨ name = "UF")
    {o : Opts} (ho : o.method = "uniform") {U : ℕ × ℕ → Ω → ℝ} (hU : UniformIid U μ)
    (A : Noise.Attrs V) (w : V → Option ℝ) (trials : ℕ) {size : ℕ} (hs : 0 < size) (errors : Ω → ℤ)
    (he : ∀ ω, ∃ err, monteCarlo (ecTrial X code name o (iidModel code (1 / 2))) trials size
      (fun r => ((A, fun i => U (r, i) ω), w)) = some err ∧ errors ω = err 0) :
    ∫ ω, (errors ω : ℝ) ∂μ = trials * (1 - (1 / 2) ^ (planesToCheck code.ec code.boundaries).length) := by
  rw [C61_mean h X hn ho (by norm_num) (by norm_num) hU A w trials hs errors he, C96_half h X]
  rcases hn with rfl | rfl
  · exact Or.inl ⟨rfl, Or.inl ho⟩
  · exact Or.inr ⟨rfl, ho⟩

/-! ### Examples -/

/-- The periodic code of distance 5: 7/8 of the trials fail, with Union-Find and with MWPM. -/
example : ∃ (code : Code) (X : Libs), IsCode code ∧ code.dims = (fun _ => 5) ∧ code.boundaries = .periodic ∧ ∀ name, name = "MWPM" ∨ name = "UF" →
    failureRate X code name {} ⟨fun _ => none, fun _ => none, fun _ => none⟩ (1 / 2) = 7 / 8 := by
  obtain ⟨X, -⟩ := libs_exist .networkx
  obtain ⟨code, hc⟩ := C54_constructor_total idOrder .primal .periodic (dims := fun _ => 5) (by simp) none
  obtain ⟨hc, hd, he, hb⟩ := hc
  have h : IsCode code := ⟨idOrder, .primal, .periodic, _, none, by simp, hc⟩
  refine ⟨code, X, h, hd, hb, fun name hn => ?_⟩
  rw [C96_half h X, hb, (C96_number code.ec).2.2]
  · norm_num
  · rcases hn with rfl | rfl
    · exact Or.inl ⟨rfl, Or.inl rfl⟩
    · exact Or.inr ⟨rfl, rfl⟩

end Flamingpy.Trial
