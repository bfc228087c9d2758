import Verif.Props.CvTrials
import Verif.Props.MacroTrials

/-!
# C65: the law of the number of errors in a simulation with a `CVLayer` without swap-outs
-/

namespace Flamingpy.Trial

open Flamingpy Flamingpy.SurfaceCode Flamingpy.UnionFind Flamingpy.Weights Flamingpy.Sim MeasureTheory ProbabilityTheory

variable {Ω : Type*} [MeasurableSpace Ω] {μ : Measure Ω} [IsProbabilityMeasure μ]

/-- Independent normal deviates in rows: the rows are independent. -/
theorem rows_indep {ι κ : Type*} {Z : ι × κ → Ω → ℝ} (hZ : Noise.NormalIid Z μ) : iIndepFun (fun i ω (k : κ) => Z (i, k) ω) μ := by
  have hrow : ∀ i, μ.map (fun ω (k : κ) => Z (i, k) ω) = Measure.infinitePi fun _ : κ => gaussianReal 0 1 := by
    intro i
    have hc : Noise.NormalIid (fun k => Z (i, k)) μ := hZ.comp (g := fun k => (i, k)) (fun a b e => by simpa using e)
    have := hc.indep.map_fun_eq_infinitePi_map hc.meas
    simp_rw [hc.normal] at this
    exact this
  have hm : ∀ i, Measurable fun ω (k : κ) => Z (i, k) ω := fun i => measurable_pi_lambda _ fun k => hZ.meas _
  rw [iIndepFun_iff_map_fun_eq_infinitePi_map hm]
  simp_rw [hrow]
  have hall := hZ.indep.map_fun_eq_infinitePi_map hZ.meas
  simp_rw [hZ.normal] at hall
  have hcur := Measure.infinitePi_map_curry (fun (_ : ι) (_ : κ) => gaussianReal 0 1)
  rw [← hcur, ← hall, Measure.map_map (MeasurableEquiv.measurable _) (measurable_pi_lambda _ hZ.meas)]
  rfl

/-- C65.  With independent normal deviates and uniform weights, the number of errors is binomially distributed: the failure probability is that of a
noisy trial, and the number of attempts is the number of trials that are the first, third, ... of their process. -/
theorem C65_binomial {code : Code} (h : IsCode code) (X : Libs) {pts : List V} {delta : ℝ} {L₀ : Noise.Layer V}
    (hL : Noise.OnCode code pts delta none .initial none L₀) (hd : 0 < delta) {name : String} (hn : name = "MWPM" ∨ name = "UF")
    {o : Opts} (ho : o.method = "uniform") (trials : ℕ) {size : ℕ} (hs : 0 < size) {Z : ℕ × ℕ × ℕ → Ω → ℝ}
    (hZ : Noise.NormalIid Z μ) (draw : ℕ → ℕ → List ℕ) (hr : ∀ r k, ∀ i ∈ draw r k, i < pts.length) (u : ℕ → ℕ → ℕ → ℝ)
    (b : ℕ → ℕ → ℕ → ℤ) (k n : ℕ) (hnn : n = (List.range trials).countP fun i => decide (i / size % 2 = 0)) :
    μ.real {ω | ∃ err, monteCarlo (ecTrial X code name o (cvModel code pts)) trials size
      (fun r => ((L₀, fun k => (draw r k, ⟨fun i => Z (r, k, i) ω, u r k, b r k⟩)), fun _ => none)) = some err ∧ err 0 = k} =
      n.choose k * noisyFailure X code pts delta name o ^ k * (1 - noisyFailure X code pts delta name o) ^ (n - k) := by
  classical
  have hv : CvOptions name o := Or.inl ⟨ho, hn⟩
  set T := (Finset.range trials).filter fun i => i / size % 2 = 0 with hT
  have hcardT : T.card = n := by
    rw [hnn, List.countP_eq_length_filter, ← List.toFinset_card_of_nodup (List.nodup_range.filter _)]
    congr 1
    ext t
    simp [hT]
  let e : Fin n ≃ T := (T.orderIsoOfFin hcardT).toEquiv
  set A : Set (ℕ → ℝ) := {z | Fails X code name o gkpAttrs (cvFlips code pts delta z)} with hA'
  have hA : MeasurableSet A := measurable_cvFlips code pts delta (Fails X code name o gkpAttrs)
  let Y : Fin n → Ω → ℕ → ℝ := fun t ω i => Z ((e t : ℕ) % size, (e t : ℕ) / size, i) ω
  have hinj : Function.Injective fun p : Fin n × ℕ => ((e p.1 : ℕ) % size, (e p.1 : ℕ) / size, p.2) := by
    rintro ⟨t, i⟩ ⟨t', i'⟩ hp
    simp only [Prod.mk.injEq] at hp
    have h1 := Nat.div_add_mod (e t : ℕ) size
    have h2 := Nat.div_add_mod (e t' : ℕ) size
    rw [hp.1, hp.2.1, h2] at h1
    have h3 : t = t' := e.injective (Subtype.ext h1.symm)
    rw [h3, hp.2.2]
  have hY : iIndepFun Y μ := rows_indep (hZ.comp hinj)
  have hYm : ∀ t, Measurable (Y t) := fun t => measurable_pi_lambda _ fun i => hZ.meas _
  have hp : ∀ t, μ.real (Y t ⁻¹' A) = noisyFailure X code pts delta name o := by
    intro t
    have hc : Noise.NormalIid (fun i => Z ((e t : ℕ) % size, (e t : ℕ) / size, i)) μ :=
      hZ.comp (g := fun i => ((e t : ℕ) % size, (e t : ℕ) / size, i)) (fun i j e => by simpa using e)
    have hlaw := hc.indep.map_fun_eq_infinitePi_map hc.meas
    simp_rw [hc.normal] at hlaw
    unfold noisyFailure
    rw [← hlaw, measureReal_def, measureReal_def, Measure.map_apply (hYm t) hA]
  rw [← binomial_events hY hYm hA hp k]
  congr 1
  ext ω
  obtain ⟨err, e1, -⟩ := C65_half h X hL hd hv trials hs (fun r k => (draw r k, ⟨fun i => Z (r, k, i) ω, u r k, b r k⟩)) (fun r _ k => hr r k)
  obtain ⟨-, e3, -⟩ := C49_errors _ trials size hs _ err e1
  have hcard : (List.range trials).countP (fun i => decide (outcome (ecTrial X code name o (cvModel code pts)) (i / size)
      ((L₀, fun k => (draw (i % size) k, ⟨fun j => Z (i % size, k, j) ω, u (i % size) k, b (i % size) k⟩)), fun _ => none) =
        some false)) = {t | Y t ω ∈ A}.ncard := by
    have h1 : {t | Y t ω ∈ A}.ncard = (Finset.univ.filter fun t => Y t ω ∈ A).card := by
      rw [Set.ncard_eq_toFinset_card']
      congr 1
      ext t
      simp
    rw [h1, ← Finset.card_map (e.toEmbedding.trans (Function.Embedding.subtype _)), List.countP_eq_length_filter,
      ← List.toFinset_card_of_nodup (List.nodup_range.filter _)]
    congr 1
    ext t
    simp only [List.mem_toFinset, List.mem_filter, List.mem_range, decide_eq_true_eq, Finset.mem_map, Finset.mem_filter, Finset.mem_univ,
      true_and]
    obtain ⟨ok, k1, k2, k3⟩ := cv_outcome h X hL hd hv (fun k => (draw (t % size) k, ⟨fun j => Z (t % size, k, j) ω, u (t % size) k,
      b (t % size) k⟩)) (hr _) (fun _ => none) (t / size)
    rw [k1, Option.some.injEq]
    constructor
    · rintro ⟨ht, hok⟩
      rcases Nat.even_or_odd (t / size) with hk | hk
      · have htT : t ∈ T := by
          rw [hT, Finset.mem_filter, Finset.mem_range]
          exact ⟨ht, Nat.even_iff.1 hk⟩
        refine ⟨e.symm ⟨t, htT⟩, ?_, ?_⟩
        · simp only [Y, Equiv.apply_symm_apply]
          exact (k3 hk ho).1 hok
        · simp
      · rw [k2 hk] at hok
        cases hok
    · rintro ⟨t', ht', rfl⟩
      simp only [Function.Embedding.trans_apply, Equiv.coe_toEmbedding, Function.Embedding.subtype_apply] at k1 k2 k3 ⊢
      have hm := (Finset.mem_filter.1 (e t').2)
      rw [Finset.mem_range] at hm
      exact ⟨hm.1, (k3 (Nat.even_iff.2 hm.2) ho).2 ht'⟩
  simp only [Set.mem_ofPred_eq]
  constructor
  · rintro ⟨err', f1, f2⟩
    rw [e1] at f1
    obtain rfl := Option.some.inj f1
    rw [e3, hcard] at f2
    exact_mod_cast f2
  · intro hk
    exact ⟨err, e1, by rw [e3, hcard]; exact_mod_cast hk⟩

/-- The hypotheses are met, and with a single process half of the trials (rounded up) are attempts: of 101 trials, 51. -/
example (k : ℕ) : ∃ (Ω : Type) (_ : MeasurableSpace Ω) (μ : Measure Ω) (code : Code) (X : Libs) (pts : List V) (L₀ : Noise.Layer V)
    (Z : ℕ × ℕ × ℕ → Ω → ℝ), IsProbabilityMeasure μ ∧ IsCode code ∧
    μ.real {ω | ∃ err, monteCarlo (ecTrial X code "UF" {} (cvModel code pts)) 101 1
      (fun r => ((L₀, fun k => ([], ⟨fun i => Z (r, k, i) ω, fun _ => 0, fun _ => 0⟩)), fun _ => none)) = some err ∧ err 0 = k} =
      (51 : ℕ).choose k * noisyFailure X code pts (1 / 10) "UF" {} ^ k * (1 - noisyFailure X code pts (1 / 10) "UF" {}) ^ (51 - k) := by
  obtain ⟨code, pts, L, h1, h2, -⟩ := Noise.onCode_exists .primal .periodic (1 / 10) none .initial
  obtain ⟨X, -⟩ := libs_exist .networkx
  obtain ⟨Ω, m, μ, hp, Z, hZ⟩ := Noise.normalIid_exists (ℕ × ℕ × ℕ)
  exact ⟨Ω, m, μ, code, X, pts, L, Z, hp, h1, C65_binomial h1 X h2 (by norm_num) (Or.inr rfl) rfl 101 one_pos hZ (fun _ _ => []) (by simp)
    (fun _ _ _ => 0) (fun _ _ _ => 0) k 51 (by decide +kernel)⟩

end Flamingpy.Trial
