import Verif.Model.GkpArray
import Verif.Props.Gkp
import Verif.Proofs.GkpLaw

/-!
# C87: `Z_err_cond` on arrays and with zero denominators
-/

namespace Flamingpy.Gkp

open List

noncomputable section

/-! ## Assigning to lists of indices -/

theorem setMany_length (e : List ℝ) (idx : List ℕ) (vs : List ℝ) : (setMany e idx vs).length = e.length := by
  unfold setMany
  generalize idx.zip vs = l
  induction l generalizing e with
  | nil => rfl
  | cons p l ih => simp only [List.foldl_cons]; rw [ih]; simp

theorem setMany_get (e : List ℝ) (idx : List ℕ) (f : ℕ → ℝ) (i : ℕ) (hi : i < e.length) :
    (setMany e idx (idx.map f))[i]? = some (if i ∈ idx then f i else e[i]) := by
  unfold setMany
  induction idx generalizing e with
  | nil => simp [hi]
  | cons j l ih =>
    simp only [List.map_cons, List.zip_cons_cons, List.foldl_cons]
    rw [ih _ (by simpa using hi)]
    by_cases h : i ∈ l
    · simp [h]
    · by_cases hj : j = i
      · subst hj; simp [h]
      · simp [h, hj, Ne.symm hj]

theorem setMany_two (n : ℕ) (junk f g : ℕ → ℝ) (p : ℕ → Bool) :
    setMany (setMany ((range n).map junk) ((range n).filter p) (((range n).filter p).map f))
      ((range n).filter fun i => i ∉ (range n).filter p) (((range n).filter fun i => i ∉ (range n).filter p).map g) =
    (range n).map fun i => if p i then f i else g i := by
  apply List.ext_getElem?
  intro i
  by_cases hi : i < n
  · have hl : i < ((range n).map junk).length := by simpa using hi
    have hl2 : i < (setMany ((range n).map junk) ((range n).filter p) (((range n).filter p).map f)).length := by
      rw [setMany_length]; exact hl
    rw [setMany_get _ _ _ _ hl2]
    have h3 := setMany_get _ ((range n).filter p) f i hl
    rw [List.getElem?_eq_getElem hl2] at h3
    rw [Option.some.inj h3]
    by_cases hp : p i <;> simp [hi, hp]
  · rw [List.getElem?_eq_none (by simp only [setMany_length]; simp; omega), List.getElem?_eq_none (by simp; omega)]

/-! ## Specification -/

/-- The value from which the sum of `Z_err_cond` is seen: the outcome, or its fractional part. -/
def seen (useHomVal : Bool) (h : ℝ) : ℝ := if useHomVal then h else (gkpBinnerFrac h).2

/-- The denominator of the formula: the weight of the multiples of `√π` in the window. -/
def weight (E : ℝ → ℝ) (varNum : ℕ) (v z : ℝ) : ℝ :=
  ∑ k ∈ Finset.Ico (-(varNum : ℤ)) varNum, E (-((z - k * √Real.pi) ^ 2) / v)

theorem denTerm_eq (E : ℝ → ℝ) (varNum : ℕ) (u : Bool) (v h : ℝ) :
    denTerm E varNum u v h = weight E varNum v (seen u h) := by
  unfold denTerm weight seen
  rw [symRange_sum]; rfl

/-! ## The array branch -/

/-- The result of the array branch if the arrays have the same size (or `hom_val` is a scalar), not one. -/
theorem core {E : ℝ → ℝ} {varNum : ℕ} {repl : Replace} {u : Bool} {junk : ℕ → ℝ} {vs : List ℝ} {hom : Arg}
    {ps : List (ℝ × ℝ)} (hb : broadcast vs hom.entries = .ok ps) (hlen : ps.length = vs.length) (h1 : vs.length ≠ 1)
    {num den : ℕ → ℝ} (hnum : ∀ i (hi : i < ps.length), num i = numTerm E varNum u ps[i].1 ps[i].2)
    (hden : ∀ i (hi : i < ps.length), den i = denTerm E varNum u ps[i].1 ps[i].2)
    {Z : List ℕ} (hZ : Z = (range vs.length).filter fun i => den i = 0) :
    zErrCondArray E varNum repl u junk (.array vs) hom =
      if Z = [] then .ok (.array ((range vs.length).map fun i => num i / den i))
      else
        (npFull Z.length (zeroDem repl u hom)).bind fun fill =>
          .ok (.array (setMany (setMany ((range vs.length).map junk) Z fill)
            ((range vs.length).filter fun i => i ∉ Z)
            (((range vs.length).filter fun i => i ∉ Z).map fun i => num i / den i))) := by
  have e1 : (ps.map fun p => numTerm E varNum u p.1 p.2) = (range vs.length).map num := by
    apply List.ext_getElem (by simp [hlen])
    intro i h1 h2
    simp only [List.length_map] at h1
    simp [hnum i h1]
  have e2 : (ps.map fun p => denTerm E varNum u p.1 p.2) = (range vs.length).map den := by
    apply List.ext_getElem (by simp [hlen])
    intro i h1 h2
    simp only [List.length_map] at h1
    simp [hden i h1]
  have e3 : ((range ((range vs.length).map den).length).filter fun i => ((range vs.length).map den).getD i 0 = 0) = Z := by
    rw [hZ]
    simp only [List.length_map, List.length_range]
    apply List.filter_congr
    intro i hi
    simp only [List.mem_range] at hi
    simp [hi]
  have e4 : (Z.any fun i => decide ((Arg.array vs).size ≤ i)) = false := by
    rw [hZ, List.any_eq_false]
    intro i hi
    simp only [List.mem_filter, List.mem_range] at hi
    have : ¬ (Arg.array vs).size ≤ i := by simpa [Arg.size] using hi.1
    simpa only [decide_eq_true_eq] using this
  have e5 : (((range vs.length).filter fun i => i ∉ Z).map fun i =>
      ((range vs.length).map num).getD i 0 / ((range vs.length).map den).getD i 0) =
      ((range vs.length).filter fun i => i ∉ Z).map fun i => num i / den i := by
    apply List.map_congr_left
    intro i hi
    simp only [List.mem_filter, List.mem_range] at hi
    simp [hi.1]
  have e6 : (range vs.length).filter (fun i => decide (i ∉ Z)) = [] →
      ∀ s : List ℝ, setMany s ((range vs.length).filter fun i => i ∉ Z)
        (((range vs.length).filter fun i => i ∉ Z).map fun i => num i / den i) = s := by
    intro h s; rw [h]; rfl
  unfold zErrCondArray
  rw [show (Arg.array vs).entries = vs from rfl, hb]
  simp only [bind, Except.bind, e1, e2, e3, e4, pure, Except.pure, if_false, Bool.false_eq_true]
  simp only [Arg.size, e5, h1, if_false]
  by_cases hz : Z = []
  · subst hz
    have hs : setMany ((range vs.length).map junk) (range vs.length) ((range vs.length).map fun i => num i / den i) =
        (range vs.length).map fun i => num i / den i := by
      have := setMany_two vs.length junk junk (fun i => num i / den i) (fun _ => false)
      simpa [setMany] using this
    by_cases hv : vs.length = 0
    · simp [hv]
    · simp [hs]
      intro h
      simp [h] at hv
  · have hz0 : Z.length ≠ 0 := by simpa using hz
    rw [if_neg hz]
    simp only [hz0, ne_eq, not_false_eq_true, if_true]
    cases npFull Z.length (zeroDem repl u hom) with
    | error e => rfl
    | ok fill =>
      simp only []
      by_cases hr : (range vs.length).filter (fun i => decide (i ∉ Z)) = []
      · rw [e6 hr, hr]; simp
      · rw [if_pos (by simpa [List.length_pos_iff] using hr)]

theorem broadcast_same {vs hs : List ℝ} (h : vs.length = hs.length) : broadcast vs hs = .ok (vs.zip hs) := by
  unfold broadcast; rw [if_pos h]

theorem broadcast_one {vs : List ℝ} {x : ℝ} : broadcast vs [x] = .ok (vs.map fun v => (v, x)) := by
  unfold broadcast
  by_cases h : vs.length = 1
  · obtain ⟨v, rfl⟩ := List.length_eq_one_iff.mp h
    simp
  · rw [if_neg (by simpa using h)]
    simp only [List.length_singleton, if_true, List.headD_cons]
    congr 1
    apply List.ext_getElem (by simp)
    intro i h1 h2
    simp

theorem npFull_one {k : ℕ} {x : ℝ} : npFull k [x] = .ok (replicate k x) := by
  unfold npFull
  by_cases h : k = 1
  · subst h; simp
  · rw [if_neg (by simpa using Ne.symm h)]; simp

/-- What a number is replaced by. -/
theorem full_const {Z : List ℕ} {x : ℝ} : npFull Z.length [x] = .ok (Z.map fun _ => x) := by
  rw [npFull_one]; simp [List.map_const']

theorem result_const {E : ℝ → ℝ} {varNum : ℕ} {repl : Replace} {u : Bool} {junk : ℕ → ℝ} {vs : List ℝ} {hom : Arg}
    {ps : List (ℝ × ℝ)} (hb : broadcast vs hom.entries = .ok ps) (hlen : ps.length = vs.length) (h1 : vs.length ≠ 1)
    {num den : ℕ → ℝ} (hnum : ∀ i (hi : i < ps.length), num i = numTerm E varNum u ps[i].1 ps[i].2)
    (hden : ∀ i (hi : i < ps.length), den i = denTerm E varNum u ps[i].1 ps[i].2) {x : ℝ}
    (hx : zeroDem repl u hom = [x]) :
    zErrCondArray E varNum repl u junk (.array vs) hom =
      .ok (.array ((range vs.length).map fun i => if den i = 0 then x else num i / den i)) := by
  rw [core hb hlen h1 hnum hden rfl, hx, full_const]
  have h2 := setMany_two vs.length junk (fun _ => x) (fun i => num i / den i) (fun i => den i = 0)
  split_ifs with hz
  · congr 2
    apply List.map_congr_left
    intro i hi
    rw [List.filter_eq_nil_iff] at hz
    have := hz i hi
    simp only [decide_eq_true_eq] at this
    rw [if_neg this]
  · simp only [Except.bind]
    rw [h2]
    simp only [decide_eq_true_eq]

/-- C87.  Two arrays of the same size (not one) and a number for undefined entries: the result is the array of the
results for the entries, whatever `np.empty` contains. -/
theorem C87_entrywise (E : ℝ → ℝ) (varNum : ℕ) (_ : 0 < varNum) (x : ℝ) (u : Bool) (junk : ℕ → ℝ) (vs hs : List ℝ)
    (h : vs.length = hs.length) (h1 : vs.length ≠ 1) :
    ∃ ys, zErrCondFull E varNum (.number x) u junk (.array vs) (.array hs) = .ok (.array ys) ∧ ys.length = vs.length ∧
      ∀ (i : ℕ) (v z y : ℝ), vs[i]? = some v → hs[i]? = some z → ys[i]? = some y →
        zErrCondFull E varNum (.number x) u junk (.scalar v) (.scalar z) = .ok (.number y) := by
  have hz : (vs.zip hs).length = vs.length := by simp [h]
  refine ⟨_, result_const (broadcast_same h) hz h1
    (num := fun i => numTerm E varNum u (vs.getD i 0) (hs.getD i 0))
    (den := fun i => denTerm E varNum u (vs.getD i 0) (hs.getD i 0)) ?_ ?_ (x := x) rfl, by simp, ?_⟩
  · intro i hi
    have hi' : i < (vs.zip hs).length := hi
    have hv : i < vs.length := by omega
    have hh : i < hs.length := by omega
    simp [List.getD, hv, hh, Arg.entries]
  · intro i hi
    have hi' : i < (vs.zip hs).length := hi
    have hv : i < vs.length := by omega
    have hh : i < hs.length := by omega
    simp [List.getD, hv, hh, Arg.entries]
  · intro i v z y hv hzz hy
    have hi : i < vs.length := (List.getElem?_eq_some_iff.mp hv).1
    simp only [List.getElem?_map, List.getElem?_range hi, Option.map_some, Option.some.injEq, List.getD, hv, hzz,
      Option.getD_some] at hy
    simp only [zErrCondFull, zErrCondScalar]
    rw [← hy]
    by_cases hd : denTerm E varNum u v z = 0
    · simp [hd]
    · simp [hd]

/-- What `replace_undefined` stands for: a number, or the distance of the fractional part (with `use_hom_val`: of the whole
value) from zero, in units of `√π`. -/
def undefinedValue (repl : Replace) (u : Bool) (z : ℝ) : ℝ :=
  match repl with
  | .number x => x
  | .binLocation => |seen u z| / √Real.pi

theorem zeroDem_one (repl : Replace) (u : Bool) {hom : Arg} {z : ℝ} (hz : hom.entries = [z]) :
    zeroDem repl u hom = [undefinedValue repl u z] := by
  cases repl with
  | number x => rfl
  | binLocation => simp only [zeroDem, hz]; rfl

/-- C87.  An array of variances (size not one) and one outcome, scalar or array: the result is the array of the results
for the variances, undefined entries replaced as documented. -/
theorem C87_one_outcome (E : ℝ → ℝ) (varNum : ℕ) (_ : 0 < varNum) (repl : Replace) (u : Bool) (junk : ℕ → ℝ)
    (vs : List ℝ) (hom : Arg) (z : ℝ) (hz : hom.entries = [z]) (h1 : vs.length ≠ 1) :
    ∃ ys, zErrCondFull E varNum repl u junk (.array vs) hom = .ok (.array ys) ∧ ys.length = vs.length ∧
      ∀ (i : ℕ) (v y : ℝ), vs[i]? = some v → ys[i]? = some y →
        (weight E varNum v (seen u z) ≠ 0 →
          zErrCondFull E varNum repl u junk (.scalar v) (.scalar z) = .ok (.number y)) ∧
        (weight E varNum v (seen u z) = 0 → y = undefinedValue repl u z) := by
  have hf : zErrCondFull E varNum repl u junk (.array vs) hom = zErrCondArray E varNum repl u junk (.array vs) hom := by
    cases hom <;> rfl
  rw [hf]
  refine ⟨_, result_const (ps := vs.map fun v => (v, z)) (by rw [hz, broadcast_one]) (by simp) h1
    (num := fun i => numTerm E varNum u (vs.getD i 0) z) (den := fun i => denTerm E varNum u (vs.getD i 0) z)
    ?_ ?_ (zeroDem_one repl u hz), by simp, ?_⟩
  · intro i hi
    have hv : i < vs.length := by simpa using hi
    simp [List.getD, hv]
  · intro i hi
    have hv : i < vs.length := by simpa using hi
    simp [List.getD, hv]
  · intro i v y hv hy
    have hi : i < vs.length := (List.getElem?_eq_some_iff.mp hv).1
    simp only [List.getElem?_map, List.getElem?_range hi, Option.map_some, Option.some.injEq, List.getD, hv,
      Option.getD_some] at hy
    rw [← denTerm_eq]
    constructor
    · intro hd
      rw [if_neg hd] at hy
      simp only [zErrCondFull, zErrCondScalar]
      rw [← hy]; simp [hd]
    · intro hd
      rw [if_pos hd] at hy
      rw [← hy]

/-- C87.  One variance and one outcome, not both scalars: one number, replaced as documented if it is undefined. -/
theorem C87_single (E : ℝ → ℝ) (varNum : ℕ) (_ : 0 < varNum) (repl : Replace) (u : Bool) (junk : ℕ → ℝ)
    (v z : ℝ) (var hom : Arg) (hv : var.entries = [v]) (hz : hom.entries = [z])
    (hne : var ≠ .scalar v ∨ hom ≠ .scalar z) :
    (weight E varNum v (seen u z) ≠ 0 → zErrCondFull E varNum repl u junk var hom =
      zErrCondFull E varNum repl u junk (.scalar v) (.scalar z)) ∧
    (weight E varNum v (seen u z) = 0 → zErrCondFull E varNum repl u junk var hom =
      .ok (.number (undefinedValue repl u z))) := by
  have hs : var.size = 1 := by
    cases var <;> simp_all [Arg.size, Arg.entries]
  have hne : zErrCondFull E varNum repl u junk var hom = zErrCondArray E varNum repl u junk var hom := by
    cases var <;> cases hom <;> simp_all [Arg.entries, zErrCondFull]
  have hb : broadcast var.entries hom.entries = .ok [(v, z)] := by rw [hv, hz, broadcast_one]; rfl
  rw [hne, ← denTerm_eq]
  unfold zErrCondArray
  simp only [hb, bind, Except.bind, hs, List.map_cons, List.map_nil, List.length_singleton, List.range_one]
  constructor
  · intro hd
    simp [hd, setMany, pure, Except.pure, zErrCondFull, zErrCondScalar]
  · intro hd
    rw [zeroDem_one repl u hz]
    simp [hd, setMany, pure, Except.pure, npFull]

/-- C87 fails for scalars: if the denominator is zero, `replace_undefined="bin_location"` returns the string. -/
theorem C87_scalar_string (E : ℝ → ℝ) (varNum : ℕ) (u : Bool) (junk : ℕ → ℝ) (v z : ℝ)
    (h : weight E varNum v (seen u z) = 0) :
    zErrCondFull E varNum .binLocation u junk (.scalar v) (.scalar z) = .ok .string := by
  rw [← denTerm_eq] at h
  simp [zErrCondFull, zErrCondScalar, h]

/-- C87.  Two arrays of the same size (not one) with `"bin_location"`: the call succeeds if no denominator or every
denominator is zero; it raises a `ValueError` if some are zero and others are not. -/
theorem C87_bin_location (E : ℝ → ℝ) (varNum : ℕ) (_ : 0 < varNum) (u : Bool) (junk : ℕ → ℝ) (vs hs : List ℝ)
    (h : vs.length = hs.length) (h1 : vs.length ≠ 1) :
    ((∀ (i : ℕ) (v z : ℝ), vs[i]? = some v → hs[i]? = some z → weight E varNum v (seen u z) ≠ 0) →
      zErrCondFull E varNum .binLocation u junk (.array vs) (.array hs) =
        zErrCondFull E varNum (.number 0) u junk (.array vs) (.array hs)) ∧
    ((∀ (i : ℕ) (v z : ℝ), vs[i]? = some v → hs[i]? = some z → weight E varNum v (seen u z) = 0) →
      zErrCondFull E varNum .binLocation u junk (.array vs) (.array hs) =
        .ok (.array (hs.map fun z => |seen u z| / √Real.pi))) ∧
    ((∃ (i : ℕ) (v z : ℝ), vs[i]? = some v ∧ hs[i]? = some z ∧ weight E varNum v (seen u z) = 0) →
      (∃ (i : ℕ) (v z : ℝ), vs[i]? = some v ∧ hs[i]? = some z ∧ weight E varNum v (seen u z) ≠ 0) →
      zErrCondFull E varNum .binLocation u junk (.array vs) (.array hs) = .error .value) := by
  have hz : (vs.zip hs).length = vs.length := by simp [h]
  have hn : ∀ i (hi : i < (vs.zip hs).length), numTerm E varNum u (vs.getD i 0) (hs.getD i 0) =
      numTerm E varNum u (vs.zip hs)[i].1 (vs.zip hs)[i].2 := by
    intro i hi
    have hv : i < vs.length := by omega
    have hh : i < hs.length := by omega
    simp [List.getD, hv, hh]
  have hd : ∀ i (hi : i < (vs.zip hs).length), denTerm E varNum u (vs.getD i 0) (hs.getD i 0) =
      denTerm E varNum u (vs.zip hs)[i].1 (vs.zip hs)[i].2 := by
    intro i hi
    have hv : i < vs.length := by omega
    have hh : i < hs.length := by omega
    simp [List.getD, hv, hh]
  have hC := fun repl : Replace => core (junk := junk) (repl := repl) (hom := .array hs) (broadcast_same h) hz h1
    (num := fun i => numTerm E varNum u (vs.getD i 0) (hs.getD i 0))
    (den := fun i => denTerm E varNum u (vs.getD i 0) (hs.getD i 0)) hn hd rfl
  have hden : ∀ i v z, vs[i]? = some v → hs[i]? = some z →
      denTerm E varNum u (vs.getD i 0) (hs.getD i 0) = weight E varNum v (seen u z) := by
    intro i v z hv hh
    simp only [List.getD, hv, hh, Option.getD_some]
    exact denTerm_eq ..
  simp only [zErrCondFull, hC]
  have hex : ∀ i < vs.length, ∃ v z, vs[i]? = some v ∧ hs[i]? = some z := fun i hi =>
    ⟨vs[i], hs[i]'(by omega), List.getElem?_eq_getElem hi, List.getElem?_eq_getElem (by omega)⟩
  have hlz : (zeroDem .binLocation u (.array hs)).length = vs.length := by simp [zeroDem, Arg.entries, h]
  refine ⟨fun ha => ?_, fun ha => ?_, fun ⟨i, v, z, hv, hh, hw⟩ ⟨i', v', z', hv', hh', hw'⟩ => ?_⟩
  · have : ((range vs.length).filter fun i => denTerm E varNum u (vs.getD i 0) (hs.getD i 0) = 0) = [] := by
      rw [List.filter_eq_nil_iff]
      intro i hi
      obtain ⟨v, z, hv, hh⟩ := hex i (List.mem_range.mp hi)
      rw [decide_eq_true_eq, hden i v z hv hh]
      exact ha i v z hv hh
    rw [if_pos this, if_pos this]
  · have hall : ((range vs.length).filter fun i => denTerm E varNum u (vs.getD i 0) (hs.getD i 0) = 0) = range vs.length := by
      rw [List.filter_eq_self]
      intro i hi
      obtain ⟨v, z, hv, hh⟩ := hex i (List.mem_range.mp hi)
      rw [decide_eq_true_eq, hden i v z hv hh]
      exact ha i v z hv hh
    rw [hall]
    by_cases h0 : vs.length = 0
    · have : hs = [] := List.length_eq_zero_iff.mp (by omega)
      simp [h0, this]
    · rw [if_neg (by simpa using h0)]
      unfold npFull
      rw [if_pos (by rw [hlz]; simp)]
      simp only [Except.bind]
      have e : zeroDem .binLocation u (.array hs) = (range vs.length).map fun i => |seen u (hs.getD i 0)| / √Real.pi := by
        apply List.ext_getElem (by rw [hlz]; simp)
        intro i g1 g2
        have gi : i < hs.length := by simpa [zeroDem, Arg.entries] using g1
        simp [zeroDem, Arg.entries, seen, binWidth, List.getD, gi]
      have e2 : (hs.map fun z => |seen u z| / √Real.pi) = zeroDem .binLocation u (.array hs) := rfl
      rw [e2, e]
      have := setMany_two vs.length junk (fun i => |seen u (hs.getD i 0)| / √Real.pi)
        (fun i => numTerm E varNum u (vs.getD i 0) (hs.getD i 0) / denTerm E varNum u (vs.getD i 0) (hs.getD i 0))
        (fun _ => true)
      simpa using this
  · set Z := (range vs.length).filter fun i => denTerm E varNum u (vs.getD i 0) (hs.getD i 0) = 0 with hZ
    have hi : i < vs.length := (List.getElem?_eq_some_iff.mp hv).1
    have hi' : i' < vs.length := (List.getElem?_eq_some_iff.mp hv').1
    have m1 : i ∈ Z := by
      rw [hZ, List.mem_filter]
      exact ⟨List.mem_range.mpr hi, by rw [decide_eq_true_eq, hden i v z hv hh]; exact hw⟩
    have m2 : i' ∉ Z := by
      rw [hZ, List.mem_filter]
      rintro ⟨-, h⟩
      rw [decide_eq_true_eq, hden i' v' z' hv' hh'] at h
      exact hw' h
    have hlt : Z.length < vs.length := by
      have := List.length_filter_lt_length_iff_exists (l := range vs.length)
        (p := fun i => decide (denTerm E varNum u (vs.getD i 0) (hs.getD i 0) = 0))
      simp only [List.length_range] at this
      rw [hZ, this]
      refine ⟨i', List.mem_range.mpr hi', ?_⟩
      rw [decide_eq_true_eq, hden i' v' z' hv' hh']
      exact hw'
    rw [if_neg (List.ne_nil_of_mem m1)]
    unfold npFull
    rw [hlz, if_neg (by omega), if_neg h1]
    rfl

/-- C87.  Arrays of different sizes, neither one, raise. -/
theorem C87_sizes (E : ℝ → ℝ) (varNum : ℕ) (_ : 0 < varNum) (repl : Replace) (u : Bool) (junk : ℕ → ℝ) (vs hs : List ℝ)
    (h : vs.length ≠ hs.length) (h1 : vs.length ≠ 1) (h2 : hs.length ≠ 1) :
    zErrCondFull E varNum repl u junk (.array vs) (.array hs) = .error .value := by
  have : broadcast vs hs = .error .value := by unfold broadcast; simp [h, h1, h2]
  simp only [zErrCondFull, zErrCondArray, Arg.entries, this, bind, Except.bind]

/-- C87 fails for one variance (scalar or array) and an array of outcomes, not of size one: the call raises, except that it
returns one number, `replace_undefined`, for the whole array if the first denominator is zero and no other is. -/
theorem C87_one_variance (E : ℝ → ℝ) (varNum : ℕ) (_ : 0 < varNum) (repl : Replace) (u : Bool) (junk : ℕ → ℝ) (var : Arg)
    (v : ℝ) (hv : var.entries = [v]) (hs : List ℝ) (h1 : hs.length ≠ 1) :
    zErrCondFull E varNum repl u junk var (.array hs) =
      if ∃ z ∈ hs.tail, weight E varNum v (seen u z) = 0 then .error .index
      else match repl, hs.head? with
        | .number x, some z => if weight E varNum v (seen u z) = 0 then .ok (.number x) else .error .value
        | _, _ => .error .value := by
  have hsz : var.size = 1 := by
    cases var <;> simp_all [Arg.size, Arg.entries]
  have hf : zErrCondFull E varNum repl u junk var (.array hs) = zErrCondArray E varNum repl u junk var (.array hs) := by
    cases var <;> rfl
  have hb : broadcast var.entries (Arg.array hs).entries = .ok (hs.map fun z => (v, z)) := by
    rw [hv]
    unfold broadcast
    simp only [Arg.entries, List.length_singleton]
    rw [if_neg (Ne.symm h1), if_neg h1, if_pos trivial]
    congr 1
    apply List.ext_getElem (by simp)
    intro i a b
    simp
  have hd : ((hs.map fun z => (v, z)).map fun p => denTerm E varNum u p.1 p.2) =
      hs.map fun z => weight E varNum v (seen u z) := by
    rw [List.map_map]
    apply List.map_congr_left
    intro z _
    exact denTerm_eq ..
  set w := hs.map fun z => weight E varNum v (seen u z) with hw
  set W := (range w.length).filter fun i => w.getD i 0 = 0 with hW
  have hmem : ∀ i, i ∈ W ↔ ∃ z, hs[i]? = some z ∧ weight E varNum v (seen u z) = 0 := by
    intro i
    rw [hW, List.mem_filter, List.mem_range, decide_eq_true_eq]
    constructor
    · rintro ⟨a, b⟩
      have a' : i < hs.length := by simpa [hw] using a
      refine ⟨hs[i], List.getElem?_eq_getElem a', ?_⟩
      simpa [hw, List.getD, a'] using b
    · rintro ⟨z, a, b⟩
      have a' : i < hs.length := (List.getElem?_eq_some_iff.mp a).1
      exact ⟨by simpa [hw] using a', by simp [hw, List.getD, a, b]⟩
  rw [hf]
  unfold zErrCondArray
  simp only [hb, bind, Except.bind, hd, ← hW, hsz, pure, Except.pure]
  by_cases ht : ∃ z ∈ hs.tail, weight E varNum v (seen u z) = 0
  · rw [if_pos ht]
    obtain ⟨z, hz, h0⟩ := ht
    obtain ⟨i, hi⟩ := List.mem_iff_getElem?.mp hz
    rw [List.getElem?_tail] at hi
    rw [if_pos]
    · rfl
    · rw [List.any_eq_true]
      refine ⟨i + 1, (hmem _).mpr ⟨z, hi, h0⟩, ?_⟩
      simp
  · rw [if_neg ht]
    have h0 : ∀ i ∈ W, i = 0 := by
      intro i hi
      by_contra hne
      obtain ⟨z, hz, h0⟩ := (hmem i).mp hi
      obtain ⟨k, rfl⟩ := Nat.exists_eq_succ_of_ne_zero hne
      refine ht ⟨z, List.mem_iff_getElem?.mpr ⟨k, ?_⟩, h0⟩
      rw [List.getElem?_tail]; exact hz
    have hany : (W.any fun i => decide (1 ≤ i)) = false := by
      rw [List.any_eq_false]
      intro i hi
      rw [h0 i hi]; simp
    have hnd : W.Nodup := List.nodup_range.filter _
    simp only [hany, Bool.false_eq_true, if_false]
    by_cases hc : 0 ∈ W
    · have hW0 : W = [0] := by
        cases hWc : W with
        | nil => rw [hWc] at hc; cases hc
        | cons a l =>
          rw [hWc] at h0 hnd
          have ha : a = 0 := h0 a (by simp)
          cases l with
          | nil => rw [ha]
          | cons b l =>
            have hb : b = 0 := h0 b (by simp)
            subst ha hb; simp at hnd
      obtain ⟨z, hz, hz0⟩ := (hmem 0).mp hc
      have hh : hs.head? = some z := by rw [← List.head?_eq_getElem?] at hz; exact hz
      have h2 : hs.length ≠ 0 := by
        intro h; rw [List.length_eq_zero_iff.mp h] at hz; simp at hz
      rw [hh, hW0]
      cases repl with
      | number x => simp [hz0, zeroDem, npFull, setMany]
      | binLocation =>
        simp [zeroDem, npFull, Arg.entries, h1]
    · have hW0 : W = [] := by
        cases hWc : W with
        | nil => rfl
        | cons a l =>
          rw [hWc] at h0 hc
          exact absurd (by rw [h0 a (by simp)]; simp) hc
      rw [hW0]
      have hres : (match repl, hs.head? with
        | .number x, some z => if weight E varNum v (seen u z) = 0 then Except.ok (Out.number x) else Except.error NpErr.value
        | _, _ => Except.error NpErr.value) = Except.error NpErr.value := by
        cases repl with
        | binLocation => rfl
        | number x =>
          cases hhd : hs.head? with
          | none => rfl
          | some z =>
            simp only []
            rw [if_neg]
            intro hz
            exact hc ((hmem 0).mpr ⟨z, by rw [← List.head?_eq_getElem?]; exact hhd, hz⟩)
      rw [hres]
      simp [h1]
      rfl

/-- C87.  Where `bin_location` is used, the fractional part gives a number between 0 (the centre of a bin) and 1/2. -/
theorem C87_bin_value (z : ℝ) : 0 ≤ undefinedValue .binLocation false z ∧ undefinedValue .binLocation false z ≤ 1 / 2 ∧
    ∃ n : ℤ, |z - n * √Real.pi| = undefinedValue .binLocation false z * √Real.pi := by
  have hp : 0 < √Real.pi := Real.sqrt_pos.mpr Real.pi_pos
  have h := C01_integer_fractional z (√Real.pi) hp
  have e : undefinedValue .binLocation false z = |(integerFractional z (√Real.pi)).2| / √Real.pi := rfl
  rw [e]
  refine ⟨by positivity, ?_, (integerFractional z (√Real.pi)).1, ?_⟩
  · rw [div_le_iff₀ hp]; linarith [h.2.1]
  · rw [div_mul_cancel₀ _ hp.ne']
    congr 1
    linarith [h.1]

/-- C87 fails with `use_hom_val`: what replaces an undefined probability is any non-negative number. -/
theorem C87_bin_value_use_hom_val (x : ℝ) (hx : 0 ≤ x) : undefinedValue .binLocation true (x * √Real.pi) = x := by
  have hp : 0 < √Real.pi := Real.sqrt_pos.mpr Real.pi_pos
  simp only [undefinedValue, seen, if_true]
  rw [abs_of_nonneg (by positivity), mul_div_cancel_right₀ _ hp.ne']

theorem weight_pos (varNum : ℕ) (h : 0 < varNum) (v z : ℝ) : 0 < weight Real.exp varNum v z :=
  Finset.sum_pos (fun _ _ => Real.exp_pos _) ⟨0, by simp; omega⟩

/-- C87.  With an exponential that never vanishes, no entry is undefined: `Z_err_cond` of two scalars is the formula of C04,
of two arrays of the same size (not one) the array of the formula's values, whatever `replace_undefined`. -/
theorem C87_exact (varNum : ℕ) (hn : 0 < varNum) (repl : Replace) (u : Bool) (junk : ℕ → ℝ) :
    (∀ v z, zErrCondFull Real.exp varNum repl u junk (.scalar v) (.scalar z) = .ok (.number (zErrCond v z varNum 0 u))) ∧
    ∀ vs hs : List ℝ, vs.length = hs.length → vs.length ≠ 1 →
      zErrCondFull Real.exp varNum repl u junk (.array vs) (.array hs) =
        .ok (.array (List.zipWith (fun v z => zErrCond v z varNum 0 u) vs hs)) := by
  have h1 : ∀ repl v z, zErrCondFull Real.exp varNum repl u junk (.scalar v) (.scalar z) =
      .ok (.number (zErrCond v z varNum 0 u)) := by
    intro repl v z
    have hd : denTerm Real.exp varNum u v z ≠ 0 := by rw [denTerm_eq]; exact (weight_pos _ hn _ _).ne'
    have hd' : denTerm Real.exp varNum u v z =
        ((symRange varNum).map fun i => exVal (if u then z else (gkpBinnerFrac z).2) v i).sum := rfl
    simp only [zErrCondFull, zErrCondScalar, if_pos hd]
    unfold zErrCond
    simp only []
    rw [← hd', if_pos hd]
    rfl
  refine ⟨h1 repl, fun vs hs h h2 => ?_⟩
  have hrepl : zErrCondFull Real.exp varNum repl u junk (.array vs) (.array hs) =
      zErrCondFull Real.exp varNum (.number 0) u junk (.array vs) (.array hs) ∨ ∃ x, repl = .number x := by
    cases repl with
    | number x => exact .inr ⟨x, rfl⟩
    | binLocation =>
      exact .inl ((C87_bin_location Real.exp varNum hn u junk vs hs h h2).1 fun i v z _ _ => (weight_pos _ hn _ _).ne')
  have key : ∀ x, zErrCondFull Real.exp varNum (.number x) u junk (.array vs) (.array hs) =
      .ok (.array (List.zipWith (fun v z => zErrCond v z varNum 0 u) vs hs)) := by
    intro x
    obtain ⟨ys, e, hl, hy⟩ := C87_entrywise Real.exp varNum hn x u junk vs hs h h2
    rw [e]
    congr 2
    apply List.ext_getElem (by simp [hl, h])
    intro i a b
    have hi : i < vs.length := by omega
    have hi' : i < hs.length := by omega
    have := hy i vs[i] hs[i] ys[i] (List.getElem?_eq_getElem hi) (List.getElem?_eq_getElem hi')
      (List.getElem?_eq_getElem a)
    rw [h1] at this
    simp only [Except.ok.injEq, Out.number.injEq] at this
    rw [← this]
    simp
  rcases hrepl with h3 | ⟨x, rfl⟩
  · rw [h3, key]
  · exact key x

/-! ## The hypotheses can be met -/

/-- An exponential that underflows. -/
def underflow (x : ℝ) : ℝ := if x < -700 then 0 else Real.exp x

theorem weight_underflow : weight underflow 1 1 0 ≠ 0 := by
  have e : Finset.Ico (-((1 : ℕ) : ℤ)) ((1 : ℕ) : ℤ) = {-1, 0} := by decide
  have h1 : 0 ≤ underflow (-((0 - ((-1 : ℤ) : ℝ) * √Real.pi) ^ 2) / 1) := by
    unfold underflow; split_ifs <;> positivity
  have h2 : underflow (-((0 - ((0 : ℤ) : ℝ) * √Real.pi) ^ 2) / 1) = 1 := by
    simp [underflow]
  unfold weight
  rw [e, Finset.sum_pair (by decide), h2]
  linarith

theorem weight_underflow_far : weight underflow 1 1 (100 * √Real.pi) = 0 := by
  have e : Finset.Ico (-((1 : ℕ) : ℤ)) ((1 : ℕ) : ℤ) = {-1, 0} := by decide
  have hp : √Real.pi ^ 2 = Real.pi := Real.sq_sqrt Real.pi_pos.le
  have h3 := Real.pi_gt_three
  unfold weight
  rw [e, Finset.sum_pair (by decide)]
  unfold underflow
  rw [if_pos, if_pos, add_zero]
  · push_cast; nlinarith
  · push_cast; nlinarith

/-- Two outcomes, one in reach of the terms and one far from them: an array call with `bin_location` raises. -/
example (junk : ℕ → ℝ) : zErrCondFull underflow 1 .binLocation true junk (.array [1, 1]) (.array [0, 100 * √Real.pi]) =
    .error .value :=
  (C87_bin_location underflow 1 one_pos true junk [1, 1] [0, 100 * √Real.pi] rfl (by simp)).2.2
    ⟨1, 1, 100 * √Real.pi, rfl, rfl, weight_underflow_far⟩ ⟨0, 1, 0, rfl, rfl, weight_underflow⟩

/-- The same with scalars returns a string. -/
example (junk : ℕ → ℝ) : zErrCondFull underflow 1 .binLocation true junk (.scalar 1) (.scalar (100 * √Real.pi)) = .ok .string :=
  C87_scalar_string underflow 1 true junk 1 _ weight_underflow_far

/-- Only a far outcome: "probability" 100. -/
example (junk : ℕ → ℝ) : zErrCondFull underflow 1 .binLocation true junk (.array [1, 1])
      (.array [100 * √Real.pi, 100 * √Real.pi]) = .ok (.array [100, 100]) := by
  have h := (C87_bin_location underflow 1 one_pos true junk [1, 1] [100 * √Real.pi, 100 * √Real.pi] rfl (by simp)).2.1 (by
    intro i v z hv hz
    rcases i with - | - | i
    · simp at hv hz; subst hv hz; exact weight_underflow_far
    · simp at hv hz; subst hv hz; exact weight_underflow_far
    · simp at hv)
  rw [h]
  have := C87_bin_value_use_hom_val 100 (by norm_num)
  simp only [undefinedValue] at this
  simp [this]

/-- One variance for two outcomes raises. -/
example (junk : ℕ → ℝ) : zErrCondFull Real.exp 10 (.number 0) false junk (.scalar 1) (.array [0, 1]) = .error .value := by
  rw [C87_one_variance Real.exp 10 (by norm_num) (.number 0) false junk (.scalar 1) 1 rfl [0, 1] (by simp), if_neg]
  · simp [(weight_pos 10 (by norm_num) 1 _).ne']
  · rintro ⟨z, -, h⟩
    exact (weight_pos 10 (by norm_num) 1 _).ne' h

end

end Flamingpy.Gkp
