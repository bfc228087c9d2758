import Verif.Proofs.SwapLaw
import Mathlib.Probability.Distributions.Binomial
import Mathlib.Probability.UniformOn

/-! # Generators that behave as in `SwapRng` exist -/

namespace Flamingpy.Noise

open MeasureTheory ProbabilityTheory

instance (m N : ℕ) : MeasurableSpace (Fin m ↪ Fin N) := ⊤
instance (m N : ℕ) : DiscreteMeasurableSpace (Fin m ↪ Fin N) := ⟨fun _ => trivial⟩

instance (N : ℕ) (k : Fin (N + 1)) : Nonempty (Fin k.val ↪ Fin N) := ⟨Fin.castLEEmb (by omega)⟩

theorem swapRng_exists (J : Type) (N : ℕ) {p : ℝ} (h0 : 0 ≤ p) (h1 : p ≤ 1) : ∃ (Ω : Type) (_ : MeasurableSpace Ω) (μ : Measure Ω)
    (_ : IsProbabilityMeasure μ) (num : J → Ω → ℕ) (choice : J → Ω → ℕ → List ℕ), SwapRng N p num choice μ := by
  classical
  set C := (k : Fin (N + 1)) → (Fin k.val ↪ Fin N)
  set μC : Measure C := Measure.pi fun k => uniformOn Set.univ with hμC
  set μ₀ : Measure (ℕ × C) := (binomial N ⟨p, h0, h1⟩).prod μC with hμ₀
  set num₀ : ℕ × C → ℕ := fun x => if x.1 ≤ N then x.1 else 0 with hnum
  set ch : C → ℕ → List ℕ := fun c k => if h : k < N + 1 then List.ofFn fun i => (c ⟨k, h⟩ i).val else [] with hch
  have mnum : Measurable num₀ := (measurable_of_countable fun n : ℕ => if n ≤ N then n else 0).comp measurable_fst
  have mch : Measurable ch := measurable_of_countable _
  have mch0 : Measurable fun x : ℕ × C => ch x.2 := mch.comp measurable_snd
  refine ⟨J → ℕ × C, inferInstance, Measure.infinitePi fun _ => μ₀, inferInstance, fun j ω => num₀ (ω j), fun j ω => ch (ω j).2,
    fun j => mnum.comp (measurable_pi_apply j), fun j => mch0.comp (measurable_pi_apply j), fun j ω => ?_, fun j ω k hk => ?_,
    fun j k hk => ?_, fun j k hk l l1 l2 l3 => ?_, fun j k => ?_, ?_⟩
  · simp only [hnum]
    split_ifs with h
    · exact h
    · exact Nat.zero_le _
  · simp only [hch, dif_pos (Nat.lt_succ_of_le hk)]
    refine ⟨?_, by simp, ?_⟩
    · rw [List.nodup_ofFn]
      intro a b e
      exact ((ω j).2 _).injective (Fin.val_injective e)
    · intro i hi
      rw [List.mem_ofFn] at hi
      obtain ⟨a, rfl⟩ := hi
      exact Fin.isLt _
  · have e1 : {ω : J → ℕ × C | num₀ (ω j) = k} = (fun ω => ω j) ⁻¹' (num₀ ⁻¹' {k}) := rfl
    rw [e1, ← map_measureReal_apply (measurable_pi_apply j) (mnum (MeasurableSet.singleton k)), Measure.infinitePi_map_eval]
    have e2 : num₀ ⁻¹' {k} = Prod.fst ⁻¹' ((fun n : ℕ => if n ≤ N then n else 0) ⁻¹' {k}) := rfl
    rw [e2, ← map_measureReal_apply measurable_fst (MeasurableSet.of_discrete), hμ₀, ← Measure.fst, Measure.fst_prod]
    have hae : (fun n : ℕ => if n ≤ N then n else 0) ⁻¹' {k} =ᵐ[binomial N ⟨p, h0, h1⟩] ({k} : Set ℕ) := by
      have := ae_le_of_hasLaw_binomial (X := fun n : ℕ => n) (P := binomial N ⟨p, h0, h1⟩) (n := N) (p := ⟨p, h0, h1⟩) HasLaw.id
      filter_upwards [this] with n hn
      change ((if n ≤ N then n else 0) = k) = (n = k)
      rw [if_pos hn]
    rw [measureReal_congr hae, binomial_real_singleton]
  · set k' : Fin (N + 1) := ⟨k, Nat.lt_succ_of_le hk⟩
    set f : Fin k'.val ↪ Fin N := ⟨fun i => ⟨l[i.val]'(by rw [l2]; exact i.2), l3 _ (List.getElem_mem _)⟩, fun a b e => by
      have := Fin.val_eq_of_eq e
      simp only at this
      exact Fin.ext ((List.Nodup.getElem_inj_iff l1).1 this)⟩ with hf
    have hmap : (Measure.infinitePi fun _ : J => μ₀).map (fun ω => (ω j).2 k') = uniformOn Set.univ := by
      have : (fun ω : J → ℕ × C => (ω j).2 k') = (fun c : C => c k') ∘ Prod.snd ∘ fun ω => ω j := rfl
      rw [this, ← Measure.map_map (measurable_pi_apply k') (measurable_snd.comp (measurable_pi_apply j)),
        ← Measure.map_map measurable_snd (measurable_pi_apply j), Measure.infinitePi_map_eval, hμ₀, ← Measure.snd, Measure.snd_prod, hμC]
      exact (measurePreserving_eval (μ := fun k : Fin (N + 1) => (uniformOn Set.univ : Measure (Fin k.val ↪ Fin N))) k').map_eq
    have e1 : {ω : J → ℕ × C | ch (ω j).2 k = l} = (fun ω => (ω j).2 k') ⁻¹' {f} := by
      ext ω
      simp only [Set.mem_ofPred_eq, Set.mem_preimage, Set.mem_singleton_iff, hch, dif_pos (Nat.lt_succ_of_le hk)]
      constructor
      · intro e
        refine Function.Embedding.ext fun i => Fin.ext ?_
        change _ = l[i.val]'_
        have := List.getElem_of_eq e (i := i.val) (by simp [k'])
        rw [← this]
        simp
        rfl
      · intro e
        refine List.ext_getElem (by simp [l2]) fun i h1 h2 => ?_
        rw [List.getElem_ofFn]
        have e' : ∀ a, ((ω j).2 k') a = f a := fun a => by rw [e]
        exact congrArg Fin.val (e' _)
    have hm : Measurable fun ω : J → ℕ × C => (ω j).2 k' :=
      (measurable_pi_apply k').comp (measurable_snd.comp (measurable_pi_apply j))
    rw [e1, ← map_measureReal_apply hm (MeasurableSet.singleton f), hmap, measureReal_def, uniformOn_univ, Measure.count_singleton, Fintype.card_embedding_eq,
      Fintype.card_fin, Fintype.card_fin]
    simp [k']
  · have hi : IndepFun (fun x : ℕ × C => num₀ x) (fun x : ℕ × C => ch x.2 k) μ₀ := by
      have := indepFun_prod (μ := binomial N ⟨p, h0, h1⟩) (ν := μC) (X := fun n : ℕ => if n ≤ N then n else 0) (Y := fun c => ch c k)
        (measurable_of_countable _) (measurable_of_countable _)
      exact this
    rw [indepFun_iff_measure_inter_preimage_eq_mul] at hi ⊢
    intro s t hs ht
    have m1 : MeasurableSet (num₀ ⁻¹' s) := mnum hs
    have m2 : MeasurableSet ((fun x : ℕ × C => ch x.2 k) ⁻¹' t) := ((measurable_pi_apply k).comp mch0) ht
    have key : ∀ A, MeasurableSet A → (Measure.infinitePi fun _ : J => μ₀) ((fun ω => ω j) ⁻¹' A) = μ₀ A := fun A hA => by
      rw [← Measure.map_apply (measurable_pi_apply j) hA, Measure.infinitePi_map_eval]
    have h3 := hi s t hs ht
    rw [← key _ m1, ← key _ m2, ← key _ (m1.inter m2)] at h3
    exact h3
  · exact iIndepFun_infinitePi (P := fun _ : J => μ₀) (X := fun _ x => (num₀ x, ch x.2)) fun _ => mnum.prodMk mch0

end Flamingpy.Noise
