import Verif.Model.Viz
import Verif.Proofs.Weights
import Verif.Props.Readouts

/-!
# C81, C82: axes and voxels
-/

namespace Flamingpy.Viz

open Flamingpy Flamingpy.SurfaceCode

/-! ### C81 -/

/-- Specification: an integer factor in front of a symbol. -/
def factorText (k : ℤ) : String := if k = 1 then "" else if k = -1 then "-" else toString k

/-- Specification: `n` times half the square root of pi, as a reduced fraction. -/
def piText (n : ℤ) : String :=
  if n = 0 then "0"
  else if n % 2 = 0 then factorText (n / 2) ++ "\\sqrt{\\pi}"
  else factorText n ++ "\\sqrt{\\pi}/2"

/-- Specification: LaTeX mathematics. -/
def inTex (tex : Bool) (n : ℤ) (s : String) : String := if tex ∧ n ≠ 0 then "$" ++ s ++ "$" else s

theorem pyRound_eq {x : ℝ} {n : ℤ} (h : |x - n| < 1 / 2) : Weights.pyRound x = n := by
  rw [abs_lt] at h
  exact le_antisymm (Weights.pyRound_le (by linarith)) (Weights.pyRound_ge (by linarith))

theorem half_pi_bounds : (0.88 : ℝ) < √Real.pi / 2 ∧ √Real.pi / 2 < 0.89 := by
  constructor
  · rw [lt_div_iff₀ two_pos, Real.lt_sqrt (by norm_num)]
    linarith [Real.pi_gt_d2]
  · rw [div_lt_iff₀ two_pos, Real.sqrt_lt' (by norm_num)]
    linarith [Real.pi_lt_d2]

theorem trunc_pref (n : ℤ) : truncInt (n * ((1 - (n % 2 : ℤ)) / 2 + (n % 2 : ℤ))) = if n % 2 = 0 then n / 2 else n := by
  have h : ∀ m : ℤ, truncInt m = m := fun m => by
    unfold truncInt
    split_ifs <;> simp
  rcases Int.emod_two_eq_zero_or_one n with h0 | h1
  · rw [if_pos h0, h0]
    obtain ⟨m, rfl⟩ := Int.dvd_of_emod_eq_zero h0
    rw [Int.mul_ediv_cancel_left _ two_ne_zero, ← h m]
    congr 1
    push_cast
    rw [h]
    ring
  · rw [if_neg (by omega), h1, ← h n]
    congr 1
    rw [h]
    push_cast
    ring

/-- C81.  A number within `10⁻⁸` of `n` times half the square root of pi is labelled as this multiple. -/
theorem C81_label (fmt : ℝ → ℕ → String) {x : ℝ} {n : ℤ} (h : |x - n * (√Real.pi / 2)| ≤ 1 / 10 ^ 8) (tex : Bool) (d : ℕ) :
    toPiString fmt x tex d = inTex tex n (piText n) := by
  obtain ⟨hl, hu⟩ := half_pi_bounds
  set c := √Real.pi / 2 with hc
  have hc0 : 0 < c := by linarith
  have h1 : Weights.pyRound (x / c) = n := by
    apply pyRound_eq
    rw [show x / c - n = (x - n * c) / c by field_simp, abs_div, abs_of_pos hc0, div_lt_iff₀ hc0]
    have : (1 : ℝ) / 10 ^ 8 < 0.4 := by norm_num
    linarith
  have h2 : isClose0 (remainder x c) = true := by
    unfold isClose0 remainder
    rw [h1, decide_eq_true_eq]
    exact h
  have h3 : (Weights.pyRound x ≠ 0) ↔ n ≠ 0 := by
    constructor
    · rintro h4 rfl
      apply h4
      apply pyRound_eq
      rw [Int.cast_zero, zero_mul, sub_zero] at h
      rw [Int.cast_zero, sub_zero]
      exact h.trans_lt (by norm_num)
    · intro hn h4
      have h5 := Weights.pyRound_near x
      rw [h4, Int.cast_zero, zero_sub, abs_neg] at h5
      have h6 : (1 : ℝ) ≤ |(n : ℝ)| := by
        rw [← Int.cast_abs]
        exact_mod_cast Int.one_le_abs hn
      have h7 : |(n : ℝ) * c| ≤ |x| + |x - n * c| := by
        have := abs_sub_abs_le_abs_sub ((n : ℝ) * c) x
        rw [abs_sub_comm] at this
        linarith
      rw [abs_mul, abs_of_pos hc0] at h7
      have : (1 : ℝ) / 10 ^ 8 < 0.3 := by norm_num
      nlinarith
  unfold toPiString
  rw [← hc, h2, if_pos rfl]
  simp only [h1, trunc_pref]
  unfold inTex piText factorText times
  by_cases hn : n = 0
  · subst hn
    simp [h3]
  · have h3' : Weights.pyRound x ≠ 0 := h3.2 hn
    simp only [h3', hn, ne_eq, not_false_eq_true, decide_true, Bool.not_true, if_true, if_false, and_true]
    rcases Int.emod_two_eq_zero_or_one n with h0 | h0
    · simp only [h0, if_true]
      set m := n / 2
      rcases eq_or_ne m 1 with e | e
      · rw [e]; cases tex <;> simp
      rcases eq_or_ne m (-1) with e' | e'
      · rw [e']; cases tex <;> simp
      have e1 : ¬ 1 + m = 0 := fun hh => e' (by omega)
      have e2 : ¬ 1 - |m| = 0 := fun hh => by
        have : |m| = 1 := by omega
        rcases (abs_eq (by norm_num)).1 this with h | h <;> omega
      cases tex <;> simp [e, e', e1, e2, ← String.toList_inj]
    · simp only [h0]
      rcases eq_or_ne n 1 with e | e
      · rw [e]; cases tex <;> simp
      rcases eq_or_ne n (-1) with e' | e'
      · rw [e']; cases tex <;> simp
      have e1 : ¬ 1 + n = 0 := fun hh => e' (by omega)
      have e2 : ¬ 1 - |n| = 0 := fun hh => by
        have : |n| = 1 := by omega
        rcases (abs_eq (by norm_num)).1 this with h | h <;> omega
      cases tex <;> simp [e, e', e1, e2, ← String.toList_inj]

/-- C81.  Other numbers are printed as decimals. -/
theorem C81_other (fmt : ℝ → ℕ → String) {x : ℝ} (h : ∀ n : ℤ, 1 / 10 ^ 8 < |x - n * (√Real.pi / 2)|) (tex : Bool) (d : ℕ) :
    toPiString fmt x tex d = fmt x d := by
  unfold toPiString
  rw [if_neg]
  unfold isClose0 remainder
  rw [decide_eq_true_eq]
  push Not
  exact h _

theorem toDigits_inj {a b : ℕ} (h : Nat.toDigits 10 a = Nat.toDigits 10 b) : a = b := by
  rw [← Nat.ofDigitChars_toDigits (b := 10) (n := a) (by norm_num) (by norm_num), h,
    Nat.ofDigitChars_toDigits (by norm_num) (by norm_num)]

theorem digits_ne {n : ℕ} {c : Char} (hc : c.isDigit = false) : c ∉ Nat.toDigits 10 n := fun h => by
  have := Nat.isDigit_of_mem_toDigits (b := 10) (by norm_num) (by norm_num) h
  rw [hc] at this
  cases this

theorem factor_list (k : ℤ) : (factorText k).toList = if k = 1 then [] else if k = -1 then ['-'] else
    if 0 ≤ k then Nat.toDigits 10 k.natAbs else '-' :: Nat.toDigits 10 k.natAbs := by
  unfold factorText
  split_ifs with h1 h2 h3
  · rfl
  · rfl
  · obtain ⟨m, rfl⟩ := Int.eq_ofNat_of_zero_le h3
    change (Int.repr (Int.ofNat m)).toList = _
    simp [Int.repr, Nat.toList_repr]
  · obtain ⟨m, rfl⟩ : ∃ m, k = Int.negSucc m := ⟨(-k - 1).toNat, by omega⟩
    change (Int.repr (Int.negSucc m)).toList = _
    simp [Int.repr, Nat.toList_repr]

theorem factor_no_slash (k : ℤ) : '\\' ∉ (factorText k).toList := by
  rw [factor_list]
  split_ifs
  · simp
  · simp
  · exact digits_ne rfl
  · simp [digits_ne (c := '\\') rfl]

theorem factor_inj {a b : ℤ} (ha : a ≠ 0) (hb : b ≠ 0) (h : factorText a = factorText b) : a = b := by
  have h := congrArg String.toList h
  rw [factor_list, factor_list] at h
  have h0 : ∀ n, Nat.toDigits 10 n ≠ [] := fun n => Nat.toDigits_ne_nil
  have h1 : ∀ n l, Nat.toDigits 10 n ≠ '-' :: l := fun n l e => digits_ne (n := n) (c := '-') rfl (by rw [e]; simp)
  split_ifs at h with h1a h1b h2b h3b h2a h1b h2b h3b h3a h1b h2b h3b h1b h2b h3b <;> simp_all
  all_goals first
    | exact absurd h.symm (h1 _ _)
    | (have := toDigits_inj h; omega)

theorem split_unique {α : Type} {c : α} : ∀ {l l' r r' : List α}, c ∉ l → c ∉ l' → l ++ c :: r = l' ++ c :: r' → l = l' ∧ r = r'
  | [], [], r, r', _, _, h => ⟨rfl, by simpa using h⟩
  | [], b :: l', r, r', _, h2, h => by simp at h; simp [h.1] at h2
  | a :: l, [], r, r', h1, _, h => by simp at h; simp [h.1] at h1
  | a :: l, b :: l', r, r', h1, h2, h => by
    simp only [List.cons_append, List.cons.injEq] at h
    obtain ⟨e, e'⟩ := split_unique (fun hc => h1 (List.mem_cons_of_mem _ hc)) (fun hc => h2 (List.mem_cons_of_mem _ hc)) h.2
    exact ⟨by rw [h.1, e], e'⟩

theorem piText_list {n : ℤ} (hn : n ≠ 0) : ∃ k : ℤ, ∃ r : List Char, k ≠ 0 ∧ (piText n).toList = (factorText k).toList ++ '\\' :: r ∧
    ((n = 2 * k ∧ r = "sqrt{\\pi}".toList) ∨ (n = k ∧ n % 2 = 1 ∧ r = "sqrt{\\pi}/2".toList)) := by
  unfold piText
  rw [if_neg hn]
  by_cases h : n % 2 = 0
  · exact ⟨n / 2, _, by omega, by rw [if_pos h, String.toList_append]; rfl, Or.inl ⟨by omega, rfl⟩⟩
  · exact ⟨n, _, hn, by rw [if_neg h, String.toList_append]; rfl, Or.inr ⟨rfl, by omega, rfl⟩⟩

theorem piText_inj {n m : ℤ} (hn : n ≠ 0) (hm : m ≠ 0) (h : piText n = piText m) : n = m := by
  obtain ⟨k, r, hk, e, hr⟩ := piText_list hn
  obtain ⟨k', r', hk', e', hr'⟩ := piText_list hm
  have h2 : (factorText k).toList ++ '\\' :: r = (factorText k').toList ++ '\\' :: r' := by rw [← e, ← e', h]
  obtain ⟨h3, h4⟩ := split_unique (factor_no_slash k) (factor_no_slash k') h2
  have h5 := factor_inj hk hk' (String.toList_inj.1 h3)
  rcases hr with ⟨a, b⟩ | ⟨a, a', b⟩ <;> rcases hr' with ⟨c, d⟩ | ⟨c, c', d⟩
  · omega
  · rw [b, d] at h4
    exact absurd h4 (by decide)
  · rw [b, d] at h4
    exact absurd h4 (by decide)
  · omega

/-- C81.  Labels of different multiples are different. -/
theorem C81_injective {tex : Bool} {n m : ℤ} (h : inTex tex n (piText n) = inTex tex m (piText m)) : n = m := by
  have key : ∀ {k : ℤ}, k ≠ 0 → inTex tex 0 (piText 0) ≠ inTex tex k (piText k) := by
    intro k hk e
    have e0 : inTex tex 0 (piText 0) = "0" := by unfold inTex piText; simp
    rw [e0] at e
    obtain ⟨j, r, -, e2, -⟩ := piText_list hk
    have h1 : '\\' ∈ (inTex tex k (piText k)).toList := by
      unfold inTex
      split_ifs
      · rw [String.toList_append, String.toList_append, e2]; simp
      · rw [e2]; simp
    rw [← e] at h1
    exact absurd h1 (by decide)
  rcases eq_or_ne n 0 with rfl | hn
  · rcases eq_or_ne m 0 with rfl | hm
    · rfl
    · exact absurd h (key hm)
  · rcases eq_or_ne m 0 with rfl | hm
    · exact absurd h.symm (key hn)
    · apply piText_inj hn hm
      unfold inTex at h
      cases tex
      · simpa using h
      · simp only [hn, hm, ne_eq, not_false_eq_true, and_self, if_true] at h
        rw [← String.toList_inj] at h
        simp only [String.toList_append] at h
        rw [← String.toList_inj]
        exact List.append_cancel_left (List.append_cancel_right h)

/-- C81.  The ticks of the plots are the consecutive multiples of `alpha` from the last one below the first value to the first one above the
last value: all values lie between the outer ticks. -/
theorem C81_ticks {alpha first last : ℝ} (ha : 0 < alpha) (h : first ≤ last) : ∃ (k : ℤ) (m : ℕ),
    xTicks first last alpha = some ((List.range (m + 2)).map fun i : ℕ => (k + i : ℤ) * alpha) ∧
    ∀ x, first ≤ x → x ≤ last → k * alpha ≤ x ∧ x < (k + m + 1 : ℤ) * alpha := by
  have hm : ⌊first / alpha⌋ ≤ ⌊last / alpha⌋ := Int.floor_le_floor (div_le_div_of_nonneg_right h ha.le)
  obtain ⟨m, hm⟩ := Int.le.dest hm
  refine ⟨⌊first / alpha⌋, m, ?_, fun x h1 h2 => ⟨?_, ?_⟩⟩
  · unfold xTicks floorDiv linspace
    have h1 : (alpha * (⌊last / alpha⌋ : ℤ) + alpha - alpha * (⌊first / alpha⌋ : ℤ)) / alpha = ((m + 1 : ℤ) : ℝ) := by
      rw [← hm]
      push_cast
      field_simp
      ring
    simp only [h1, Int.floor_intCast]
    rw [if_neg (by omega), if_neg (by omega)]
    congr 1
    rw [show ((m : ℤ) + 1 + 1).toNat = m + 2 by omega]
    refine List.map_congr_left fun i _ => ?_
    rw [← hm]
    push_cast
    have : ((m : ℝ) + 1 + 1 - 1) ≠ 0 := by
      have : (0 : ℝ) ≤ m := Nat.cast_nonneg m
      linarith
    field_simp
    ring
  · rw [← le_div_iff₀ ha]
    exact (Int.floor_le _).trans (div_le_div_of_nonneg_right h1 ha.le)
  · rw [hm, ← div_lt_iff₀ ha]
    push_cast
    exact (div_le_div_of_nonneg_right h2 ha.le).trans_lt (Int.lt_floor_add_one _)

/-- C81.  With `alpha` the square root of pi every tick is labelled as the multiple that it is, and no two ticks have the same label. -/
theorem C81_tick_labels (fmt : ℝ → ℕ → String) {first last : ℝ} (h : first ≤ last) (tex : Bool) (d : ℕ) :
    ∃ (k : ℤ) (m : ℕ) (ticks : List ℝ), xTicks first last √Real.pi = some ticks ∧ ticks.length = m + 2 ∧
      ticks.map (fun x => toPiString fmt x tex d) =
        (List.range (m + 2)).map (fun i : ℕ => inTex tex (2 * (k + i)) (piText (2 * (k + i)))) ∧
      (ticks.map fun x => toPiString fmt x tex d).Nodup := by
  obtain ⟨k, m, e, -⟩ := C81_ticks (Real.sqrt_pos.2 Real.pi_pos) h
  have e1 : ((List.range (m + 2)).map fun i : ℕ => ((k + i : ℤ) : ℝ) * √Real.pi).map (fun x => toPiString fmt x tex d) =
      (List.range (m + 2)).map (fun i : ℕ => inTex tex (2 * (k + i)) (piText (2 * (k + i)))) := by
    rw [List.map_map]
    refine List.map_congr_left fun i _ => C81_label fmt ?_ tex d
    push_cast
    rw [show ((k : ℝ) + i) * √Real.pi - 2 * (k + i) * (√Real.pi / 2) = 0 by ring, abs_zero]
    norm_num
  refine ⟨k, m, _, e, by simp, e1, ?_⟩
  rw [e1]
  refine List.Nodup.map_on (fun i _ j _ hij => ?_) List.nodup_range
  have := C81_injective hij
  omega

/-! ### C82 -/

/-- Specification: the points of a box. -/
def box (origin size : Fin 3 → ℝ) : Set (Fin 3 → ℝ) := {p | ∀ i, origin i ≤ p i ∧ p i ≤ origin i + size i}

/-- Specification: the corners of a box on one of its faces: those with coordinate `i` at the lower or upper end. -/
def faceCorners (origin size : Fin 3 → ℝ) (i : Fin 3) (upper : Bool) : Set (Fin 3 → ℝ) :=
  {p | (∀ j, p j = origin j ∨ p j = origin j + size j) ∧ p i = if upper then origin i + size i else origin i}

theorem mapM_some {α β : Type} (f : α → Option β) (g : α → β) : ∀ l : List α, (∀ a ∈ l, f a = some (g a)) → l.mapM f = some (l.map g)
  | [], _ => rfl
  | a :: l, h => by
    rw [List.mapM_cons, h a (by simp), mapM_some f g l fun b hb => h b (by simp [hb])]
    rfl

/-- C82.  The syndrome plot has one voxel for each stabilizer, around its midpoint; it is red if the stabilizer has odd parity and green if it
has even parity; no two voxels overlap. -/
theorem C82_voxels {code : Code} (h : IsCode code) (bits : V → Bool) : ∃ vs, voxels code bits = some vs ∧ vs.length = code.stabs.length ∧
    (∀ k (hk : k < vs.length), ∃ c : Fin 3 → ℚ, midpoint ((physical code).getD k []) = some c ∧
      box vs[k].1 vs[k].2.1 = {p : Fin 3 → ℝ | ∀ i, |p i - (c i : ℝ)| ≤ 0.85} ∧
      vs[k].2.2 = if parity bits (code.stabs.getD k []) then "#FF000015" else "#00FF0015") ∧
    ∀ k l (hk : k < vs.length) (hl : l < vs.length), k ≠ l → Disjoint (box vs[k].1 vs[k].2.1) (box vs[l].1 vs[l].2.1) := by
  obtain ⟨hlen, hnd, hmid⟩ := C71_midpoint h
  choose! c hc1 hc2 hc3 hc4 using hmid
  set g : List V × List V → (Fin 3 → ℝ) × (Fin 3 → ℝ) × String := fun s =>
    let x := (lims s.1 0).getD (0, 0)
    let y := (lims s.1 1).getD (0, 0)
    let z := (lims s.1 2).getD (0, 0)
    let lo : Fin 3 → ℝ := ![x.1, y.1, z.1]
    let hi : Fin 3 → ℝ := ![x.2, y.2, z.2]
    (fun i => lo i + 0.15, fun i => |hi i - lo i| - 2 * 0.15, if parity bits s.2 then "#FF000015" else "#00FF0015") with hg
  have hz : ((physical code).zip code.stabs).length = code.stabs.length := by rw [List.length_zip, hlen, min_self]
  have hget : ∀ k (hk : k < code.stabs.length), ((physical code).zip code.stabs)[k]'(by rw [hz]; exact hk) =
      ((physical code).getD k [], code.stabs.getD k []) := fun k hk => by
    rw [List.getElem_zip, List.getD_eq_getElem _ _ (by rw [hlen]; exact hk), List.getD_eq_getElem _ _ hk]
  have hvs : voxels code bits = some (((physical code).zip code.stabs).map g) := by
    unfold voxels
    refine mapM_some _ g _ fun s hs => ?_
    obtain ⟨k, hk, rfl⟩ := List.getElem_of_mem hs
    rw [hz] at hk
    rw [hget k hk]
    simp only [hg, hc2 k hk, Option.getD_some]
    rfl
  have hv : ∀ k (hk : k < (((physical code).zip code.stabs).map g).length), (((physical code).zip code.stabs).map g)[k] =
      (fun i => (c k i : ℝ) - 0.85, fun _ => 1.7, if parity bits (code.stabs.getD k []) then "#FF000015" else "#00FF0015") := by
    intro k hk
    rw [List.length_map, hz] at hk
    rw [List.getElem_map, hget k hk]
    simp only [hg, hc2 k hk, Option.getD_some, Prod.mk.injEq, and_true]
    constructor
    · funext i
      fin_cases i <;> simp <;> norm_num <;> ring
    · funext i
      fin_cases i <;> simp <;> norm_num
  have hbox : ∀ c : V, box (fun i => (c i : ℝ) - 0.85) (fun _ => 1.7) = {p : Fin 3 → ℝ | ∀ i, |p i - (c i : ℝ)| ≤ 0.85} := by
    intro c
    ext p
    refine forall_congr' fun i => ?_
    rw [abs_le]
    constructor
    · rintro ⟨a, b⟩; constructor <;> linarith
    · rintro ⟨a, b⟩; constructor <;> linarith
  refine ⟨_, hvs, by rw [List.length_map, hz], fun k hk => ⟨fun i => (c k i : ℚ), ?_, ?_, ?_⟩, fun k l hk hl hkl => ?_⟩
  · rw [List.length_map, hz] at hk
    exact hc1 k hk
  · rw [hv k hk, hbox]
    simp
  · rw [hv k hk]
  · rw [hv k hk, hv l hl, hbox, hbox, Set.disjoint_left]
    intro p h1 h2
    rw [List.length_map, hz] at hk hl
    apply hkl
    have hcc : c k = c l := by
      funext i
      have a1 := abs_le.1 (h1 i)
      have a2 := abs_le.1 (h2 i)
      have a3 : ((c k i : ℤ) : ℝ) - c l i < 2 := by linarith [a1.1, a2.2]
      have a4 : ((c l i : ℤ) : ℝ) - c k i < 2 := by linarith [a1.2, a2.1]
      have a5 : c k i - c l i < 2 := by exact_mod_cast a3
      have a6 : c l i - c k i < 2 := by exact_mod_cast a4
      have b1 := hc3 k hk i
      have b2 := hc3 l hl i
      cases hE : code.ec <;> rw [hE] at b1 b2 <;> simp only at b1 b2 <;> omega
    have hm := List.nodup_iff_injective_get.1 hnd
    have hk' : k < ((physical code).map midpoint).length := by rw [List.length_map, hlen]; exact hk
    have hl' : l < ((physical code).map midpoint).length := by rw [List.length_map, hlen]; exact hl
    have : (⟨k, hk'⟩ : Fin _) = ⟨l, hl'⟩ := hm (by
      simp only [List.get_eq_getElem, List.getElem_map]
      have e1 := hc1 k hk
      have e2 := hc1 l hl
      rw [List.getD_eq_getElem _ _ (by rw [hlen]; exact hk)] at e1
      rw [List.getD_eq_getElem _ _ (by rw [hlen]; exact hl)] at e2
      rw [e1, e2, hcc])
    exact congrArg Fin.val this

/-- C82.  The polygons of a voxel are the six faces of the box, each once, and each drawn along its sides. -/
theorem C82_faces (origin size : Fin 3 → ℝ) (hs : ∀ i, size i ≠ 0) : ∃ sides : List (Fin 3 × Bool), sides.Nodup ∧ (∀ s, s ∈ sides) ∧
    List.Forall₂ (fun (face : List (Fin 3 → ℝ)) (s : Fin 3 × Bool) => face.length = 4 ∧ face.Nodup ∧
      {p | p ∈ face} = faceCorners origin size s.1 s.2 ∧
      ∀ a ∈ face.zip (face.rotate 1), ∃ i, a.1 i ≠ a.2 i ∧ ∀ j ≠ i, a.1 j = a.2 j) (cuboidData origin size) sides := by
  refine ⟨[(2, false), (1, false), (0, true), (0, false), (1, true), (2, true)], by decide, by decide, ?_⟩
  have h0 := hs 0
  have h1 := hs 1
  have h2 := hs 2
  unfold cuboidData
  simp only [List.map_cons, List.map_nil]
  refine .cons ?_ (.cons ?_ (.cons ?_ (.cons ?_ (.cons ?_ (.cons ?_ .nil)))))
  all_goals
    refine ⟨rfl, ?_, ?_, ?_⟩
    · simp [funext_iff, Fin.forall_fin_succ, h0, h1, h2]
    · ext p
      simp only [faceCorners, Set.mem_ofPred_eq, List.mem_cons, List.not_mem_nil, or_false, funext_iff, Fin.forall_fin_succ]
      simp [add_comm (origin _) (size _)]
      try tauto
    · simp [Fin.exists_fin_succ, Fin.forall_fin_succ, h0, h1, h2]

/-- C82.  All polygons of a voxel have its colour. -/
theorem C82_polygons (vs : List ((Fin 3 → ℝ) × (Fin 3 → ℝ) × String)) :
    (plotCubes vs).1.length = 6 * vs.length ∧ (plotCubes vs).2.length = 6 * vs.length ∧
    ∀ k (hk : k < vs.length) (j : ℕ), j < 6 → (plotCubes vs).1[6 * k + j]? = (cuboidData vs[k].1 vs[k].2.1)[j]? ∧
      (plotCubes vs).2[6 * k + j]? = some vs[k].2.2 := by
  have h6 : ∀ o s : Fin 3 → ℝ, (cuboidData o s).length = 6 := fun o s => rfl
  have key : ∀ {β : Type} (f : (Fin 3 → ℝ) × (Fin 3 → ℝ) × String → List β) (hf : ∀ v, (f v).length = 6)
      (l : List ((Fin 3 → ℝ) × (Fin 3 → ℝ) × String)), (l.flatMap f).length = 6 * l.length ∧
      ∀ k (hk : k < l.length) (j : ℕ), j < 6 → (l.flatMap f)[6 * k + j]? = (f l[k])[j]? := by
    intro β f hf l
    induction l with
    | nil => simp
    | cons v l ih =>
      refine ⟨by rw [List.flatMap_cons, List.length_append, ih.1, hf, List.length_cons]; ring, fun k hk j hj => ?_⟩
      rw [List.flatMap_cons]
      cases k with
      | zero => rw [Nat.mul_zero, Nat.zero_add, List.getElem?_append_left (by rw [hf]; exact hj)]; rfl
      | succ k =>
        rw [List.getElem?_append_right (by rw [hf]; omega), hf, show 6 * (k + 1) + j - 6 = 6 * k + j by omega,
          ih.2 k (by simpa using hk) j hj]
        rfl
  refine ⟨(key _ (fun v => h6 v.1 v.2.1) vs).1, (key _ (fun v => by simp) vs).1, fun k hk j hj =>
    ⟨(key _ (fun v => h6 v.1 v.2.1) vs).2 k hk j hj, ?_⟩⟩
  refine ((key (fun v => List.replicate 6 v.2.2) (fun v => by simp) vs).2 k hk j hj).trans ?_
  rw [List.getElem?_replicate, if_pos hj]

/-! ### Concrete cases -/

example (fmt : ℝ → ℕ → String) : toPiString fmt (3 * (√Real.pi / 2)) true 2 = "$3\\sqrt{\\pi}/2$" := by
  rw [C81_label fmt (n := 3) (by norm_num)]
  decide +kernel

example (fmt : ℝ → ℕ → String) : toPiString fmt (-√Real.pi) false 2 = "-\\sqrt{\\pi}" := by
  rw [C81_label fmt (n := -2) (by push_cast; ring_nf; norm_num)]
  decide +kernel

-- the number 1 is not close to a multiple of half the square root of pi
example (fmt : ℝ → ℕ → String) : toPiString fmt 1 true 2 = fmt 1 2 := by
  refine C81_other fmt (fun n => ?_) true 2
  obtain ⟨h1, h2⟩ := half_pi_bounds
  rcases le_or_gt n 1 with h | h
  · have : (n : ℝ) ≤ 1 := by exact_mod_cast h
    rw [lt_abs]
    left
    nlinarith
  · have : (2 : ℝ) ≤ n := by exact_mod_cast h
    rw [lt_abs]
    right
    nlinarith

-- a box with three different side lengths
example : ∀ i, (![1, 2, 3] : Fin 3 → ℝ) i ≠ 0 := by
  intro i
  fin_cases i <;> norm_num

-- the two colours occur: an error on one qubit of the smallest code with open boundaries
example : ((surfaceCode idOrder .primal .open (fun _ => 2) none).map fun code =>
    (code.stabs.length, code.stabs.countP fun s => parity (fun v => decide (some v = code.syndrome.head?)) s)) = some (4, 1) := by
  decide +kernel

end Flamingpy.Viz
