import Verif.Model.Macronize
import Verif.Proofs.EGraph
import Mathlib.Tactic.Linarith
import Mathlib.Tactic.FieldSimp
import Mathlib.Tactic.Ring
import Mathlib.Tactic.NormNum
import Mathlib.Tactic.Positivity
import Mathlib.Data.List.Count

/-! Helper lemmas for `Props/Macronize`. -/

namespace Flamingpy.Macronize

open Flamingpy Flamingpy.EGraph

/-! ### Rounding -/

theorem pyRound_close (m : ℤ) {t : ℚ} (h1 : -(1/2) < t) (h2 : t < 1/2) : pyRound (m + t) = m := by
  unfold pyRound
  rcases le_or_gt 0 t with ht | ht
  · have hf : ⌊(m : ℚ) + t⌋ = m := by
      rw [Int.floor_eq_iff]; constructor <;> linarith
    simp only [hf]
    rw [if_pos (by linarith)]
  · have hf : ⌊(m : ℚ) + t⌋ = m - 1 := by
      rw [Int.floor_eq_iff]; push_cast; constructor <;> linarith
    simp only [hf]
    push_cast
    rw [if_neg (by linarith), if_pos (by linarith)]
    ring

theorem pyRound_int (m : ℤ) : pyRound (m : ℚ) = m := by
  have := pyRound_close m (t := 0) (by norm_num) (by norm_num)
  simpa using this

theorem pyRound_neg (x : ℚ) : pyRound (-x) = -pyRound x := by
  set m := ⌊x⌋ with hm
  have h1 : (m : ℚ) ≤ x := Int.floor_le x
  have h2 : x < m + 1 := Int.lt_floor_add_one x
  by_cases hx : x = m
  · rw [hx, show -(m : ℚ) = ((-m : ℤ) : ℚ) by push_cast; ring, pyRound_int, pyRound_int]
  · have h3 : (m : ℚ) < x := lt_of_le_of_ne h1 (Ne.symm hx)
    have hf : ⌊-x⌋ = -m - 1 := by
      rw [Int.floor_eq_iff]; push_cast; constructor <;> linarith
    unfold pyRound
    simp only [hf, ← hm]
    push_cast
    by_cases c1 : x - m < 1/2
    · rw [if_neg (by linarith), if_pos (by linarith), if_pos c1]; ring
    · rw [if_neg c1]
      by_cases c2 : x - m > 1/2
      · rw [if_pos (by linarith), if_pos c2]; ring
      · rw [if_neg c2, if_neg (by linarith), if_neg (by linarith)]
        by_cases c3 : m % 2 = 0
        · rw [if_pos c3, if_neg (by omega)]; ring
        · rw [if_neg c3, if_pos (by omega)]; ring

theorem pyRound_ge {x : ℚ} {k : ℤ} (h : (k : ℚ) ≤ x) : k ≤ pyRound x := by
  have : k ≤ ⌊x⌋ := Int.le_floor.mpr h
  unfold pyRound
  dsimp only
  split_ifs <;> omega

theorem pyRound_le {x : ℚ} {k : ℤ} (h : x ≤ (k : ℚ)) : pyRound x ≤ k := by
  have := pyRound_ge (x := -x) (k := -k) (by push_cast; linarith)
  rw [pyRound_neg] at this
  omega

theorem roundDec_neg (n : ℕ) (x : ℚ) : roundDec n (-x) = -roundDec n x := by
  unfold roundDec
  rw [neg_mul, pyRound_neg]; push_cast; ring

theorem roundDec_zero (n : ℕ) : roundDec n 0 = 0 := by
  unfold roundDec
  have := pyRound_int 0
  simp only [Int.cast_zero] at this
  rw [zero_mul, this]; simp

/-- The displacement actually used. -/
def delta (disp : ℚ) : ℚ := roundDec (decimals disp) disp

theorem pyRound_close_half (x : ℚ) : |(pyRound x : ℚ) - x| ≤ 1 / 2 := by
  have h1 := Int.floor_le x
  have h2 := Int.lt_floor_add_one x
  unfold pyRound
  simp only
  split_ifs <;> rw [abs_le] <;> push_cast <;> constructor <;> linarith

theorem delta_close {disp : ℚ} (h0 : 0 < disp) : |delta disp - disp| ≤ disp / 20 := by
  unfold delta roundDec decimals
  have hlt : 1 / disp < 10 ^ (Nat.log 10 ⌊1 / disp⌋₊ + 1) := by
    have h1 : 1 / disp < ⌊1 / disp⌋₊ + 1 := Nat.lt_floor_add_one _
    have h2 : ⌊1 / disp⌋₊ < 10 ^ (Nat.log 10 ⌊1 / disp⌋₊ + 1) := Nat.lt_pow_succ_log_self (by norm_num) _
    have h3 : ((⌊1 / disp⌋₊ + 1 : ℕ) : ℚ) ≤ ((10 ^ (Nat.log 10 ⌊1 / disp⌋₊ + 1) : ℕ) : ℚ) := by exact_mod_cast h2
    push_cast at h3
    linarith
  set n := Nat.log 10 ⌊1 / disp⌋₊
  have hp : (0 : ℚ) < 10 ^ (n + 1) := by positivity
  have h1 : 1 < disp * 10 ^ (n + 1) := by
    rw [div_lt_iff₀ h0] at hlt; linarith
  have h2 := pyRound_close_half (disp * 10 ^ (n + 2))
  have e : (10 : ℚ) ^ (n + 2) = 10 * 10 ^ (n + 1) := by ring
  have hq : (0 : ℚ) < 10 ^ (n + 2) := by positivity
  have h3 : (pyRound (disp * 10 ^ (n + 2)) : ℚ) / 10 ^ (n + 2) - disp =
      ((pyRound (disp * 10 ^ (n + 2)) : ℚ) - disp * 10 ^ (n + 2)) / 10 ^ (n + 2) := by
    field_simp
  rw [h3, abs_div, abs_of_pos hq, div_le_iff₀ hq]
  rw [e] at h2 ⊢
  nlinarith

theorem delta_pos {disp : ℚ} (h0 : 0 < disp) : 0 < delta disp := by
  unfold delta roundDec
  apply div_pos _ (by positivity)
  have hlt : 1 / disp < 10 ^ (Nat.log 10 ⌊1 / disp⌋₊ + 1) := by
    have h1 := Nat.lt_floor_add_one (1 / disp)
    have h2 : ⌊1 / disp⌋₊ + 1 ≤ 10 ^ (Nat.log 10 ⌊1 / disp⌋₊ + 1) :=
      Nat.lt_pow_succ_log_self (by norm_num) _
    have h3 : ((⌊1 / disp⌋₊ : ℕ) : ℚ) + 1 ≤ 10 ^ (Nat.log 10 ⌊1 / disp⌋₊ + 1) := by exact_mod_cast h2
    exact lt_of_lt_of_le h1 h3
  have h4 : 1 < disp * 10 ^ (Nat.log 10 ⌊1 / disp⌋₊ + 1) := by
    rw [div_lt_iff₀ h0] at hlt; linarith
  have h5 : ((10 : ℤ) : ℚ) ≤ disp * 10 ^ decimals disp := by
    unfold decimals
    rw [show Nat.log 10 ⌊1 / disp⌋₊ + 2 = (Nat.log 10 ⌊1 / disp⌋₊ + 1) + 1 from rfl, pow_succ]
    push_cast; nlinarith
  have := pyRound_ge h5
  have : 0 < pyRound (disp * 10 ^ decimals disp) := by omega
  exact_mod_cast this

theorem delta_le_half {disp : ℚ} (h1 : disp < 1/2) : delta disp ≤ 1/2 := by
  unfold delta roundDec
  rw [div_le_iff₀ (by positivity)]
  have hd : decimals disp = (Nat.log 10 ⌊1 / disp⌋₊ + 1) + 1 := rfl
  have h5 : disp * 10 ^ decimals disp ≤ ((5 * 10 ^ (Nat.log 10 ⌊1 / disp⌋₊ + 1) : ℤ) : ℚ) := by
    rw [hd, pow_succ]
    push_cast
    have : (0 : ℚ) < 10 ^ (Nat.log 10 ⌊1 / disp⌋₊ + 1) := by positivity
    nlinarith
  have := pyRound_le h5
  have h6 : ((pyRound (disp * 10 ^ decimals disp) : ℤ) : ℚ) ≤
      ((5 * 10 ^ (Nat.log 10 ⌊1 / disp⌋₊ + 1) : ℤ) : ℚ) := by exact_mod_cast this
  have e : (10 : ℚ) ^ decimals disp = 10 ^ (Nat.log 10 ⌊1 / disp⌋₊ + 1) * 10 := by rw [hd, pow_succ]
  push_cast at h6
  linarith

/-- Bounds with two decimals survive the rounding. -/
theorem delta_bounds {disp : ℚ} (k : ℤ) :
    (disp ≤ k / 100 → delta disp ≤ k / 100) ∧ ((k : ℚ) / 100 ≤ disp → (k : ℚ) / 100 ≤ delta disp) := by
  have e : (10 : ℚ) ^ decimals disp = 10 ^ (Nat.log 10 ⌊1 / disp⌋₊) * 100 := by
    unfold decimals; rw [pow_add]; norm_num
  have hp : (0 : ℚ) < 10 ^ (Nat.log 10 ⌊1 / disp⌋₊) := by positivity
  unfold delta roundDec
  constructor
  · intro h
    rw [div_le_iff₀ (by positivity)]
    have h5 : disp * 10 ^ decimals disp ≤ ((k * 10 ^ (Nat.log 10 ⌊1 / disp⌋₊) : ℤ) : ℚ) := by
      rw [e]; push_cast; nlinarith
    have := pyRound_le h5
    have h6 : ((pyRound (disp * 10 ^ decimals disp) : ℤ) : ℚ) ≤
      ((k * 10 ^ (Nat.log 10 ⌊1 / disp⌋₊) : ℤ) : ℚ) := by exact_mod_cast this
    push_cast at h6
    rw [show (k : ℚ) / 100 * 10 ^ decimals disp = k * 10 ^ (Nat.log 10 ⌊1 / disp⌋₊) by rw [e]; ring]
    exact h6
  · intro h
    rw [le_div_iff₀ (by positivity)]
    have h5 : ((k * 10 ^ (Nat.log 10 ⌊1 / disp⌋₊) : ℤ) : ℚ) ≤ disp * 10 ^ decimals disp := by
      rw [e]; push_cast; nlinarith
    have := pyRound_ge h5
    have h6 : ((k * 10 ^ (Nat.log 10 ⌊1 / disp⌋₊) : ℤ) : ℚ) ≤
      ((pyRound (disp * 10 ^ decimals disp) : ℤ) : ℚ) := by exact_mod_cast this
    push_cast at h6
    rw [show (k : ℚ) / 100 * 10 ^ decimals disp = k * 10 ^ (Nat.log 10 ⌊1 / disp⌋₊) by rw [e]; ring]
    exact h6

/-! ### Directions -/

/-- Direction (as a vector of signs) in which the edge leaves `u`. -/
def dir (u v : Pt) (periodic : Bool) : Pt :=
  let flip : ℚ := if periodic then -1 else 1
  (flip * sgn (v.1 - u.1), flip * sgn (v.2.1 - u.2.1), flip * sgn (v.2.2 - u.2.2))

/-- Position displaced from `v` by `t` times `d`. -/
def displace (t : ℚ) (v d : Pt) : Pt := (v.1 + t * d.1, v.2.1 + t * d.2.1, v.2.2 + t * d.2.2)

theorem sgn_cases (x : ℚ) : sgn x = 1 ∨ sgn x = -1 ∨ sgn x = 0 := by
  unfold sgn; split_ifs <;> simp

theorem sgn_neg (x : ℚ) : sgn (-x) = -sgn x := by
  unfold sgn
  rcases lt_trichotomy x 0 with h | h | h
  · rw [if_pos (by linarith), if_neg (by linarith), if_pos h]; norm_num
  · subst h; simp
  · rw [if_neg (by linarith), if_pos (by linarith), if_pos h]

theorem roundDec_sign (disp c : ℚ) (hc : c = 1 ∨ c = -1 ∨ c = 0) :
    roundDec (decimals disp) (disp * c) = delta disp * c := by
  rcases hc with rfl | rfl | rfl
  · rw [mul_one, mul_one]; rfl
  · rw [mul_neg_one, roundDec_neg, mul_neg_one]; rfl
  · rw [mul_zero, mul_zero, roundDec_zero]

theorem dir_cases (u v : Pt) (b : Bool) :
    ((dir u v b).1 = 1 ∨ (dir u v b).1 = -1 ∨ (dir u v b).1 = 0) ∧
    ((dir u v b).2.1 = 1 ∨ (dir u v b).2.1 = -1 ∨ (dir u v b).2.1 = 0) ∧
    ((dir u v b).2.2 = 1 ∨ (dir u v b).2.2 = -1 ∨ (dir u v b).2.2 = 0) := by
  have key : ∀ x : ℚ, (if b = true then (-1 : ℚ) else 1) * sgn x = 1 ∨
      (if b = true then (-1 : ℚ) else 1) * sgn x = -1 ∨ (if b = true then (-1 : ℚ) else 1) * sgn x = 0 := by
    intro x
    rcases sgn_cases x with h | h | h <;> rw [h] <;> cases b <;> norm_num
  exact ⟨key _, key _, key _⟩

theorem shortened_eq (disp : ℚ) (u v : Pt) (b : Bool) :
    shortened disp u v b = (delta disp * (dir u v b).1, delta disp * (dir u v b).2.1,
      delta disp * (dir u v b).2.2) := by
  obtain ⟨h1, h2, h3⟩ := dir_cases u v b
  unfold shortened
  simp only
  rw [← roundDec_sign disp _ h1, ← roundDec_sign disp _ h2, ← roundDec_sign disp _ h3]
  unfold dir
  simp only
  refine Prod.ext ?_ (Prod.ext ?_ ?_) <;> simp only <;> congr 1 <;> ring

theorem dir_comm (u v : Pt) (b : Bool) :
    dir v u b = (-(dir u v b).1, -(dir u v b).2.1, -(dir u v b).2.2) := by
  unfold dir
  simp only
  rw [show u.1 - v.1 = -(v.1 - u.1) by ring, show u.2.1 - v.2.1 = -(v.2.1 - u.2.1) by ring,
    show u.2.2 - v.2.2 = -(v.2.2 - u.2.2) by ring, sgn_neg, sgn_neg, sgn_neg]
  refine Prod.ext ?_ (Prod.ext ?_ ?_) <;> simp only <;> ring

theorem half1 (disp : ℚ) (u v : Pt) (b : Bool) :
    add u (shortened disp u v b) = displace (delta disp) u (dir u v b) := by
  rw [shortened_eq]; rfl

theorem half2 (disp : ℚ) (u v : Pt) (b : Bool) :
    sub v (shortened disp u v b) = displace (delta disp) v (dir v u b) := by
  rw [shortened_eq, dir_comm u v b]
  unfold sub displace
  refine Prod.ext ?_ (Prod.ext ?_ ?_) <;> simp only <;> ring

/-! ### Integer points -/

/-- All coordinates are integers. -/
def IsInt (p : Pt) : Prop := ∃ a b c : ℤ, p = ((a : ℚ), (b : ℚ), (c : ℚ))

theorem roundPt_displace {t : ℚ} (h0 : 0 ≤ t) (h1 : t < 1/2) {v d : Pt} (hv : IsInt v)
    (hd : (d.1 = 1 ∨ d.1 = -1 ∨ d.1 = 0) ∧ (d.2.1 = 1 ∨ d.2.1 = -1 ∨ d.2.1 = 0) ∧
      (d.2.2 = 1 ∨ d.2.2 = -1 ∨ d.2.2 = 0)) : roundPt (displace t v d) = v := by
  obtain ⟨a, b, c, rfl⟩ := hv
  have key : ∀ (m : ℤ) (x : ℚ), (x = 1 ∨ x = -1 ∨ x = 0) → pyRound ((m : ℚ) + t * x) = m := by
    intro m x hx
    apply pyRound_close <;> rcases hx with rfl | rfl | rfl <;> linarith
  unfold roundPt displace
  simp only
  rw [key a _ hd.1, key b _ hd.2.1, key c _ hd.2.2]

theorem displace_inj {t : ℚ} (h0 : t ≠ 0) {v d d' : Pt} (h : displace t v d = displace t v d') :
    d = d' := by
  unfold displace at h
  simp only [Prod.mk.injEq] at h
  obtain ⟨h1, h2, h3⟩ := h
  refine Prod.ext ?_ (Prod.ext ?_ ?_)
  · exact mul_left_cancel₀ h0 (by linarith)
  · exact mul_left_cancel₀ h0 (by linarith)
  · exact mul_left_cancel₀ h0 (by linarith)

theorem roundPt_bump {v : Pt} (hv : IsInt v) (i : ℕ) : roundPt (bump v i) = v := by
  have hd : ∃ d : Pt, ((d.1 = 1 ∨ d.1 = -1 ∨ d.1 = 0) ∧ (d.2.1 = 1 ∨ d.2.1 = -1 ∨ d.2.1 = 0) ∧
      (d.2.2 = 1 ∨ d.2.2 = -1 ∨ d.2.2 = 0)) ∧ bump v i = displace (1/20) v d := by
    unfold bump displace
    split
    · exact ⟨(1, 0, 0), by norm_num, by norm_num⟩
    · exact ⟨(0, 1, 0), by norm_num, by norm_num⟩
    · exact ⟨(0, 0, 1), by norm_num, by norm_num⟩
  obtain ⟨d, hd, he⟩ := hd
  rw [he]
  exact roundPt_displace (by norm_num) (by norm_num) hv hd

theorem bump_inj {v : Pt} {i j : ℕ} (hi : i < 3) (hj : j < 3) (h : bump v i = bump v j) : i = j := by
  have : ∀ k < 3, k = 0 ∨ k = 1 ∨ k = 2 := by omega
  rcases this i hi with rfl | rfl | rfl <;> rcases this j hj with rfl | rfl | rfl <;>
    first
    | rfl
    | (exfalso
       unfold bump at h
       simp only [Prod.mk.injEq] at h
       obtain ⟨h1, h2, h3⟩ := h
       linarith)

theorem bump_ne_displace {t : ℚ} (ht : t ≠ 1/20) (h0 : 0 < t) {v d : Pt}
    (hd : (d.1 = 1 ∨ d.1 = -1 ∨ d.1 = 0) ∧ (d.2.1 = 1 ∨ d.2.1 = -1 ∨ d.2.1 = 0) ∧
      (d.2.2 = 1 ∨ d.2.2 = -1 ∨ d.2.2 = 0)) (i : ℕ) : bump v i ≠ displace t v d := by
  have key : ∀ y x : ℚ, (x = 1 ∨ x = -1 ∨ x = 0) → y + 1/20 = y + t * x → False := by
    intro y x hx hxt
    rcases hx with rfl | rfl | rfl
    · exact ht (by linarith)
    · linarith
    · linarith
  intro h
  unfold bump displace at h
  split at h <;> simp only [Prod.mk.injEq] at h
  · exact key _ _ hd.1 h.1
  · exact key _ _ hd.2.1 h.2.1
  · exact key _ _ hd.2.2 h.2.2

/-! ### The dictionary -/

/-- Adding a micronode `p` of macronode `k`. -/
def push (d : List (Pt × List Pt)) (k p : Pt) : List (Pt × List Pt) := append d k p

/-- No empty lists. -/
def NoEmpty (d : List (Pt × List Pt)) : Prop := ∀ k, PyDict.get? d k ≠ some []

theorem get?_set (d : List (Pt × List Pt)) (k : Pt) (v : List Pt) (k' : Pt) :
    PyDict.get? (PyDict.set d k v) k' = if k = k' then some v else PyDict.get? d k' := by
  by_cases hm : k ∈ PyDict.keys d
  · rw [PyDict.set_of_mem v hm]
    induction d with
    | nil => cases hm
    | cons e d ih =>
      rw [List.map_cons, PyDict.get?_cons, PyDict.get?_cons]
      by_cases he : e.1 = k
      · simp only [he, if_true]
        by_cases hk : k = k'
        · simp [hk]
        · simp only [hk, if_false]
          by_cases hm' : k ∈ PyDict.keys d
          · rw [ih hm']; simp [hk]
          · have : d.map (fun e => if e.1 = k then (k, v) else e) = d := by
              conv_rhs => rw [← List.map_id d]
              apply List.map_congr_left
              intro x hx
              have : x.1 ≠ k := fun hc => hm' (hc ▸ List.mem_map_of_mem (f := (·.1)) hx)
              simp [this]
            rw [this]
      · have hm' : k ∈ PyDict.keys d := by
          simp only [PyDict.keys, List.map_cons, List.mem_cons] at hm
          rcases hm with hm | hm
          · exact absurd hm.symm he
          · exact hm
        simp only [he, if_false]
        rw [ih hm']
        by_cases hk : k = k'
        · have : e.1 ≠ k' := by rw [← hk]; exact he
          simp [hk, this]
        · simp [hk]
  · rw [PyDict.set_of_not_mem v hm, PyDict.get?_append_single hm]

theorem set_set (d : List (Pt × List Pt)) (k : Pt) (v w : List Pt) :
    PyDict.set (PyDict.set d k v) k w = PyDict.set d k w := by
  by_cases hm : k ∈ PyDict.keys d
  · rw [PyDict.set_of_mem w (by rw [PyDict.keys_set_of_mem v hm]; exact hm), PyDict.set_of_mem v hm,
      PyDict.set_of_mem w hm, List.map_map]
    apply List.map_congr_left
    intro e _
    simp only [Function.comp]
    by_cases he : e.1 = k <;> simp [he]
  · rw [PyDict.set_of_not_mem v hm, PyDict.set_of_not_mem w hm]
    rw [PyDict.set_of_mem w (by simp [PyDict.keys])]
    rw [List.map_append]
    have : d.map (fun e => if e.1 = k then (k, w) else e) = d := by
      conv_rhs => rw [← List.map_id d]
      apply List.map_congr_left
      intro x hx
      have : x.1 ≠ k := fun hc => hm (hc ▸ List.mem_map_of_mem (f := (·.1)) hx)
      simp [this]
    rw [this]; simp

theorem keys_set (d : List (Pt × List Pt)) (k : Pt) (v : List Pt) :
    PyDict.keys (PyDict.set d k v) = if k ∈ PyDict.keys d then PyDict.keys d else PyDict.keys d ++ [k] := by
  split_ifs with h
  · exact PyDict.keys_set_of_mem v h
  · rw [PyDict.set_of_not_mem v h, PyDict.keys_append]; rfl

/-- Two dictionaries with the same keys in the same order and the same entries are equal. -/
theorem dict_ext {d d' : List (Pt × List Pt)} (hk : PyDict.keys d = PyDict.keys d')
    (hn : (PyDict.keys d).Nodup) (hg : ∀ k, PyDict.get? d k = PyDict.get? d' k) : d = d' := by
  induction d generalizing d' with
  | nil =>
    cases d' with
    | nil => rfl
    | cons e d' => simp [PyDict.keys] at hk
  | cons e d ih =>
    cases d' with
    | nil => simp [PyDict.keys] at hk
    | cons e' d' =>
      simp only [PyDict.keys, List.map_cons, List.cons.injEq] at hk
      simp only [PyDict.keys, List.map_cons, List.nodup_cons] at hn
      have h1 := hg e.1
      rw [PyDict.get?_cons, PyDict.get?_cons, if_pos rfl, if_pos hk.1.symm] at h1
      have he : e = e' := Prod.ext hk.1 (Option.some.inj h1)
      subst he
      congr 1
      refine ih hk.2 hn.2 fun k => ?_
      have := hg k
      rw [PyDict.get?_cons, PyDict.get?_cons] at this
      by_cases hek : e.1 = k
      · have a1 : k ∉ PyDict.keys d := hek ▸ hn.1
        have a2 : k ∉ PyDict.keys d' := by
          unfold PyDict.keys; rw [← hk.2]; exact a1
        rw [(PyDict.get?_eq_none _ _).mpr a1, (PyDict.get?_eq_none _ _).mpr a2]
      · simpa [hek] using this

/-- The dictionary update of one edge is two pushes. -/
theorem dict_edge {d : List (Pt × List Pt)} (hne : NoEmpty d) (hn : (PyDict.keys d).Nodup)
    {u v : Pt} (huv : u ≠ v) (p q : Pt) :
    append (append (ensure (ensure d u) v) u p) v q = push (push d u p) v q := by
  have hens : ∀ (d : List (Pt × List Pt)) (k : Pt), PyDict.get? d k ≠ some [] →
      ensure d k = if k ∈ PyDict.keys d then d else PyDict.set d k [] := by
    intro d k hne
    unfold ensure
    split_ifs with h1 h2 h2
    · exfalso
      obtain ⟨l, hl⟩ := Option.isSome_iff_exists.mp ((PyDict.get?_isSome_iff d k).mpr h2)
      rw [hl] at h1 hne
      simp only [Option.getD_some, List.isEmpty_iff] at h1
      exact hne (by rw [h1])
    · rfl
    · rfl
    · exfalso
      rw [(PyDict.get?_eq_none d k).mpr h2] at h1
      simp at h1
  have h1 := hens d u (hne u)
  have hne2 : PyDict.get? (ensure d u) v ≠ some [] := by
    rw [h1]; split_ifs
    · exact hne v
    · rw [get?_set, if_neg huv]; exact hne v
  have h2 := hens (ensure d u) v hne2
  have ndset : ∀ (d : List (Pt × List Pt)) k w, (PyDict.keys d).Nodup → (PyDict.keys (PyDict.set d k w)).Nodup := by
    intro d k w hd
    rw [keys_set]
    split_ifs with h
    · exact hd
    · rw [List.nodup_append]
      exact ⟨hd, by simp, by rintro a ha b hb rfl; rw [List.mem_singleton] at hb; exact h (hb ▸ ha)⟩
  have nd1 : (PyDict.keys (ensure d u)).Nodup := by rw [h1]; split_ifs; exacts [hn, ndset _ _ _ hn]
  have nd2 : (PyDict.keys (ensure (ensure d u) v)).Nodup := by
    rw [h2]; split_ifs; exacts [nd1, ndset _ _ _ nd1]
  apply dict_ext
  · unfold push append
    rw [h2, h1]
    simp only [keys_set]
    by_cases hu : u ∈ PyDict.keys d
    · by_cases hv : v ∈ PyDict.keys d
      · simp [hu, hv, keys_set]
      · simp [hu, hv, keys_set]
    · by_cases hv : v ∈ PyDict.keys d
      · simp [hu, hv, keys_set]
      · simp [hu, hv, keys_set, huv.symm]
  · unfold append
    exact ndset _ _ _ (ndset _ _ _ nd2)
  · intro k
    have hd0 : ∀ k, (PyDict.get? (ensure (ensure d u) v) k).getD [] = (PyDict.get? d k).getD [] := by
      intro k
      rw [h2]
      have base : (PyDict.get? (ensure d u) k).getD [] = (PyDict.get? d k).getD [] := by
        rw [h1]
        split_ifs with hu
        · rfl
        · rw [get?_set]
          split_ifs with huk
          · subst huk; rw [(PyDict.get?_eq_none d u).mpr hu]; rfl
          · rfl
      split_ifs with hv
      · exact base
      · rw [get?_set]
        split_ifs with hvk
        · subst hvk
          rw [← base, (PyDict.get?_eq_none _ v).mpr hv]; rfl
        · exact base
    unfold push append
    simp only [get?_set, hd0]
    by_cases hk1 : v = k
    · subst hk1
      simp only [if_true, huv, if_false]
      rw [hd0]
    · by_cases hk2 : u = k
      · simp [hk1, hk2]
      · simp only [hk1, hk2, if_false]
        rw [h2, h1]
        split_ifs <;> simp [get?_set, hk1, hk2]

/-! ### Representation of the graph under construction -/

/-- `m` was built by adding the (macronode, micronode) pairs `H` and the edges `E`. -/
structure Rep (m : MG) (H : List (Pt × Pt)) (E : List (Pt × Pt)) : Prop where
  nodes : m.nodes = H.map (·.2)
  edges : m.edges = E
  ends : ∀ e ∈ E, e.1 ∈ m.nodes ∧ e.2 ∈ m.nodes
  knd : (PyDict.keys m.dict).Nodup
  get : ∀ k, PyDict.get? m.dict k =
    if (H.filter fun h => decide (h.1 = k)) = [] then none
    else some ((H.filter fun h => decide (h.1 = k)).map (·.2))
  flat : (flat m.dict).Perm (H.map (·.2))
  pp : m.perfectPoints = none

theorem Rep.noEmpty {m H E} (h : Rep m H E) : NoEmpty m.dict := by
  intro k hk
  rw [h.get] at hk
  split_ifs at hk with hc
  simp only [Option.some.injEq, List.map_eq_nil_iff] at hk
  exact hc hk

theorem push_get {d : List (Pt × List Pt)} {H : List (Pt × Pt)}
    (hget : ∀ k, PyDict.get? d k = if (H.filter fun h => decide (h.1 = k)) = [] then none
      else some ((H.filter fun h => decide (h.1 = k)).map (·.2))) (u p : Pt) :
    ∀ k, PyDict.get? (push d u p) k = if ((H ++ [(u, p)]).filter fun h => decide (h.1 = k)) = [] then none
      else some (((H ++ [(u, p)]).filter fun h => decide (h.1 = k)).map (·.2)) := by
  intro k
  unfold push append
  rw [get?_set, List.filter_append]
  by_cases hk : u = k
  · subst hk
    simp only [if_true, decide_true, List.filter_cons_of_pos, List.filter_nil, List.append_eq_nil_iff,
      List.cons_ne_nil, and_false, if_false, List.map_append, List.map_cons, List.map_nil]
    rw [hget]
    split_ifs with h
    · simp [h]
    · simp
  · have : ([(u, p)].filter fun h => decide (h.1 = k)) = [] := by simp [hk]
    rw [this, List.append_nil, if_neg hk, hget]

theorem push_flat {d : List (Pt × List Pt)} (hn : (PyDict.keys d).Nodup) (u p : Pt) :
    (flat (push d u p)).Perm (p :: flat d) := by
  unfold push append
  cases hg : PyDict.get? d u with
  | none => simpa using flat_set_new hg p
  | some l => simpa using flat_set_old hn hg p

theorem push_keys {d : List (Pt × List Pt)} (hn : (PyDict.keys d).Nodup) (u p : Pt) :
    (PyDict.keys (push d u p)).Nodup := by
  unfold push append
  rw [keys_set]
  split_ifs with h
  · exact hn
  · rw [List.nodup_append]
    exact ⟨hn, by simp, by rintro a ha b hb rfl; rw [List.mem_singleton] at hb; exact h (hb ▸ ha)⟩

theorem rep_edge {m H E} (h : Rep m H E) (disp : ℚ) {u v : Pt} {b : Bool} (huv : u ≠ v)
    (h1 : displace (delta disp) u (dir u v b) ∉ H.map (·.2))
    (h2 : displace (delta disp) v (dir v u b) ∉ H.map (·.2))
    (h3 : displace (delta disp) u (dir u v b) ≠ displace (delta disp) v (dir v u b)) :
    Rep (edgeStep disp m (u, v, b))
      (H ++ [(u, displace (delta disp) u (dir u v b)), (v, displace (delta disp) v (dir v u b))])
      (E ++ [(displace (delta disp) u (dir u v b), displace (delta disp) v (dir v u b))]) := by
  unfold edgeStep
  simp only [half1, half2]
  generalize displace (delta disp) u (dir u v b) = p at *
  generalize displace (delta disp) v (dir v u b) = q at *
  have hp : p ∉ m.nodes := by rw [h.nodes]; exact h1
  have hq : q ∉ m.nodes ++ [p] := by
    rw [h.nodes, List.mem_append, List.mem_singleton]
    rintro (hc | hc)
    · exact h2 hc
    · exact h3 hc.symm
  have hadd : addNode (addNode m p) q = { m with nodes := m.nodes ++ [p] ++ [q] } := by
    unfold addNode; rw [if_neg hp]; simp only; rw [if_neg hq]
  have hed : addEdge (addNode (addNode m p) q) p q =
      { m with nodes := m.nodes ++ [p] ++ [q], edges := m.edges ++ [(p, q)] } := by
    rw [hadd]; unfold addEdge
    rw [if_neg]
    intro hc
    rw [List.any_eq_true] at hc
    obtain ⟨e, he, hee⟩ := hc
    simp only [decide_eq_true_eq] at hee
    simp only [h.edges] at he
    have := h.ends e he
    rcases hee with ⟨e1, _⟩ | ⟨_, e2⟩
    · exact hp (e1 ▸ this.1)
    · exact hp (e2 ▸ this.2)
  rw [hed]
  simp only
  have hde := dict_edge h.noEmpty h.knd huv p q
  refine ⟨?_, ?_, ?_, ?_, ?_, ?_, h.pp⟩
  · simp [h.nodes]
  · simp [h.edges]
  · intro e he
    rcases List.mem_append.mp he with he | he
    · have := h.ends e he
      simp [this.1, this.2]
    · rw [List.mem_singleton] at he; subst he; simp
  · simp only [hde]
    exact push_keys (push_keys h.knd u p) v q
  · simp only [hde]
    have := push_get (push_get h.get u p) v q
    rw [List.append_assoc] at this
    exact this
  · simp only [hde]
    refine (push_flat (push_keys h.knd u p) v q).trans ?_
    refine ((push_flat h.knd u p).cons q).trans ?_
    refine (((h.flat.cons p).cons q)).trans ?_
    rw [List.map_append]
    simp only [List.map_cons, List.map_nil]
    refine (List.Perm.swap p q _).trans ?_
    exact (List.perm_append_comm (l₁ := [p, q]) (l₂ := H.map (·.2)))

/-- The (macronode, micronode) pairs of the edges. -/
def halves (t : ℚ) (es : List (Pt × Pt × Bool)) : List (Pt × Pt) :=
  es.flatMap fun e => [(e.1, displace t e.1 (dir e.1 e.2.1 e.2.2)),
    (e.2.1, displace t e.2.1 (dir e.2.1 e.1 e.2.2))]

/-- The edges of the macronode graph. -/
def bars (t : ℚ) (es : List (Pt × Pt × Bool)) : List (Pt × Pt) :=
  es.map fun e => (displace t e.1 (dir e.1 e.2.1 e.2.2), displace t e.2.1 (dir e.2.1 e.1 e.2.2))

theorem rep_edges (disp : ℚ) (es : List (Pt × Pt × Bool)) {m H E} (h : Rep m H E)
    (hne : ∀ e ∈ es, e.1 ≠ e.2.1)
    (hnd : ((H ++ halves (delta disp) es).map (·.2)).Nodup) :
    Rep (es.foldl (edgeStep disp) m) (H ++ halves (delta disp) es) (E ++ bars (delta disp) es) := by
  induction es generalizing m H E with
  | nil => simpa [halves, bars] using h
  | cons e es ih =>
    obtain ⟨u, v, b⟩ := e
    have hsplit : H ++ halves (delta disp) ((u, v, b) :: es) =
        (H ++ [(u, displace (delta disp) u (dir u v b)), (v, displace (delta disp) v (dir v u b))]) ++
          halves (delta disp) es := by simp [halves]
    rw [hsplit] at hnd ⊢
    have hnd0 := hnd
    rw [List.map_append, List.map_append, List.nodup_append, List.nodup_append] at hnd
    obtain ⟨⟨_, hpq, hdis⟩, _, _⟩ := hnd
    simp only [List.map_cons, List.map_nil] at hpq hdis
    have hstep := rep_edge h disp (b := b) (hne (u, v, b) (by simp))
      (fun hc => hdis _ hc _ (by simp) rfl) (fun hc => hdis _ hc _ (by simp) rfl)
      (by simp only [List.nodup_cons, List.mem_singleton] at hpq; exact hpq.1)
    have := ih hstep (fun e he => hne e (List.mem_cons_of_mem _ he)) hnd0
    rw [List.foldl_cons]
    have hb : E ++ bars (delta disp) ((u, v, b) :: es) =
        (E ++ [(displace (delta disp) u (dir u v b), displace (delta disp) v (dir v u b))]) ++
          bars (delta disp) es := by simp [bars]
    rw [hb]; exact this

theorem rep_pad_one {m H E} (h : Rep m H E) {v p : Pt} (hp : p ∉ H.map (·.2)) :
    Rep { addNode m p with dict := append (addNode m p).dict v p } (H ++ [(v, p)]) E := by
  have hadd : addNode m p = { m with nodes := m.nodes ++ [p] } := by
    unfold addNode; rw [if_neg (by rw [h.nodes]; exact hp)]
  rw [hadd]
  refine ⟨by simp [h.nodes], h.edges, ?_, push_keys h.knd v p, push_get h.get v p, ?_, h.pp⟩
  · intro e he
    have := h.ends e he
    simp [this.1, this.2]
  · refine (push_flat h.knd v p).trans ((h.flat.cons p).trans ?_)
    rw [List.map_append]
    exact (List.perm_append_singleton p _).symm

/-- The padding pairs of `v`. -/
def pads (v : Pt) (n : ℕ) : List (Pt × Pt) := (List.range n).map fun i => (v, bump v i)

theorem rep_pads {m H E} (h : Rep m H E) (v : Pt) (l : List ℕ)
    (hnd : ((H ++ l.map fun i => (v, bump v i)).map (·.2)).Nodup) :
    Rep (l.foldl (fun m i =>
      let m := addNode m (bump v i)
      { m with dict := append m.dict v (bump v i) }) m) (H ++ l.map fun i => (v, bump v i)) E := by
  induction l generalizing m H with
  | nil => simpa using h
  | cons i l ih =>
    have hsplit : H ++ (i :: l).map (fun i => (v, bump v i)) =
        (H ++ [(v, bump v i)]) ++ l.map (fun i => (v, bump v i)) := by simp
    rw [hsplit] at hnd ⊢
    rw [List.foldl_cons]
    refine ih (rep_pad_one h ?_) hnd
    intro hc
    rw [List.map_append, List.map_append, List.nodup_append, List.nodup_append] at hnd
    exact hnd.1.2.2 _ hc _ (by simp) rfl

/-- Size of macronode `v` in `H`. -/
def size (H : List (Pt × Pt)) (v : Pt) : ℕ := (H.filter fun h => decide (h.1 = v)).length

theorem size_pads_ne {v w : Pt} (h : v ≠ w) (n : ℕ) : size (pads v n) w = 0 := by
  unfold size pads
  rw [List.length_eq_zero_iff, List.filter_eq_nil_iff]
  intro x hx
  obtain ⟨i, _, rfl⟩ := List.mem_map.mp hx
  simpa using h

theorem size_pads_self (v : Pt) (n : ℕ) : size (pads v n) v = n := by
  unfold size pads
  rw [List.filter_eq_self.mpr]
  · simp
  · intro x hx
    obtain ⟨i, _, rfl⟩ := List.mem_map.mp hx
    simp

theorem size_append (H H' : List (Pt × Pt)) (v : Pt) : size (H ++ H') v = size H v + size H' v := by
  unfold size; rw [List.filter_append, List.length_append]

theorem rep_padStep {m H E} (h : Rep m H E) (v : Pt) (hs : 1 ≤ size H v)
    (hnd : ((H ++ pads v (4 - size H v)).map (·.2)).Nodup) :
    ∃ m', padStep m v = some m' ∧ Rep m' (H ++ pads v (4 - size H v)) E := by
  have hg := h.get v
  rw [if_neg (by intro hc; unfold size at hs; rw [hc] at hs; simp at hs)] at hg
  refine ⟨_, by unfold padStep; rw [hg], ?_⟩
  have := rep_pads h v (List.range (4 - size H v)) hnd
  simp only [List.length_map]
  exact this

theorem rep_padAll (vs : List Pt) (hvs : vs.Nodup) {m H E} (h : Rep m H E)
    (hs : ∀ v ∈ vs, 1 ≤ size H v)
    (hnd : ((H ++ vs.flatMap fun v => pads v (4 - size H v)).map (·.2)).Nodup) :
    ∃ m', vs.foldlM padStep m = some m' ∧
      Rep m' (H ++ vs.flatMap fun v => pads v (4 - size H v)) E := by
  induction vs generalizing m H with
  | nil => exact ⟨m, rfl, by simpa using h⟩
  | cons v vs ih =>
    rw [List.nodup_cons] at hvs
    have hcong : (vs.flatMap fun w => pads w (4 - size (H ++ pads v (4 - size H v)) w)) =
        vs.flatMap fun w => pads w (4 - size H w) := by
      apply List.flatMap_congr
      intro w hw
      rw [size_append, size_pads_ne (by rintro rfl; exact hvs.1 hw), add_zero]
    have hsplit : H ++ (v :: vs).flatMap (fun v => pads v (4 - size H v)) =
        (H ++ pads v (4 - size H v)) ++ vs.flatMap
          (fun w => pads w (4 - size (H ++ pads v (4 - size H v)) w)) := by
      rw [hcong]; simp
    rw [hsplit] at hnd ⊢
    obtain ⟨m1, e1, r1⟩ := rep_padStep h v (hs v (by simp)) (by
      rw [List.map_append, List.nodup_append] at hnd; exact hnd.1)
    obtain ⟨m2, e2, r2⟩ := ih hvs.2 r1 (by
      intro w hw
      rw [size_append]
      have := hs w (List.mem_cons_of_mem _ hw)
      omega) hnd
    refine ⟨m2, ?_, r2⟩
    rw [List.foldlM_cons, e1]
    exact e2

/-- In a list of pairs whose ends are all different, an end occurs in exactly one pair. -/
theorem count_end {E : List (Pt × Pt)} (hnd : (E.flatMap fun e => [e.1, e.2]).Nodup) (p : Pt) :
    (E.filter fun e => decide (e.1 = p ∨ e.2 = p)).length =
      if p ∈ E.flatMap (fun e => [e.1, e.2]) then 1 else 0 := by
  induction E with
  | nil => simp
  | cons e E ih =>
    rw [List.flatMap_cons, List.nodup_append] at hnd
    have ih := ih hnd.2.1
    rw [List.filter_cons, List.flatMap_cons]
    by_cases hp : e.1 = p ∨ e.2 = p
    · have hmem : p ∈ [e.1, e.2] := by
        rcases hp with rfl | rfl <;> simp
      have hnot : p ∉ E.flatMap fun e => [e.1, e.2] := fun hc => hnd.2.2 p hmem p hc rfl
      rw [if_neg hnot] at ih
      simp only [hp, decide_true, if_true, List.length_cons, ih]
      rw [if_pos (List.mem_append_left _ hmem)]
    · have hnm : p ∉ [e.1, e.2] := by
        intro hc
        rcases List.mem_cons.mp hc with hc | hc
        · exact hp (Or.inl hc.symm)
        · rw [List.mem_singleton] at hc; exact hp (Or.inr hc.symm)
      simp only [hp, decide_false, Bool.false_eq_true, if_false, ih, List.mem_append, hnm, false_or]

end Flamingpy.Macronize
