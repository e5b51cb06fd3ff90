import Verif.Spec.NoisePredict
import Verif.Props.PredictTf
import Verif.Props.Noise

/-!
# C237: predicted positions from records with noise

Specification: `Spec/NoisePredict.lean`.
-/

namespace SST.Props.NoisePredict
open SST SST.Field SST.Spec SST.Spatial SST.Tf SST.Dft SST.Props.PredictData SST.Props.Robust SST.Props.PredictTf MeasureTheory

/-- Root of the sum of squares of a sum. -/
theorem l2_add (s : Finset ℕ) (a b : ℕ → ℝ) {A B : ℝ} (hA : 0 ≤ A) (hB : 0 ≤ B) (ha : ∑ i ∈ s, a i ^ 2 ≤ A ^ 2) (hb : ∑ i ∈ s, b i ^ 2 ≤ B ^ 2) :
    ∑ i ∈ s, (a i + b i) ^ 2 ≤ (A + B) ^ 2 := by
  have hcs := Finset.sum_mul_sq_le_sq_mul_sq s a b
  have h1 : ∑ i ∈ s, a i * b i ≤ A * B := by
    apply le_of_sq_le_sq _ (by positivity)
    calc _ ≤ (∑ i ∈ s, a i ^ 2) * ∑ i ∈ s, b i ^ 2 := hcs
      _ ≤ A ^ 2 * B ^ 2 := mul_le_mul ha hb (Finset.sum_nonneg fun _ _ => sq_nonneg _) (sq_nonneg _)
      _ = _ := by ring
  have e : ∑ i ∈ s, (a i + b i) ^ 2 = ∑ i ∈ s, a i ^ 2 + 2 * ∑ i ∈ s, a i * b i + ∑ i ∈ s, b i ^ 2 := by
    rw [Finset.mul_sum, ← Finset.sum_add_distrib, ← Finset.sum_add_distrib]
    exact Finset.sum_congr rfl fun i _ => by ring
  rw [e]
  nlinarith

theorem patternSpec_add (w : List ℝ) (a b : ℤ → ℝ) (L s k : ℕ) : patternSpec w (fun t => a t + b t) L s k = patternSpec w a L s k + patternSpec w b L s k := by
  unfold patternSpec
  rw [← Finset.sum_add_distrib]
  refine Finset.sum_congr rfl fun j _ => ?_
  push_cast
  ring

/-- The record of a pattern with a disturbance. -/
theorem noisy_record (q : ℤ → ℝ) (n : ℕ) (m : ℤ) (e : ℕ → ℝ) :
    ((recordOf q n m).zipIdx.map fun r => r.1 + e r.2) = recordOf (fun t => q (t - m) + e t.toNat) n 0 := by
  apply List.ext_getElem
  · simp [recordOf]
  · intro i h1 h2
    simp [recordOf]

/-- Spectra of the reference and of another sensor, both disturbed. -/
theorem close_noisy {w : List ℝ} {n L h S k : ℕ} {q : ℤ → ℝ} {m0 m1 : ℤ} {e0 e1 : ℕ → ℝ} {ρ η : ℝ} (hρ : 0 ≤ ρ) (hη : 0 ≤ η) (hη1 : η < 1)
    (hfit : ∀ i ∈ Finset.range S, i * h + L ≤ n) {p : ℝ} (hp0 : 0 < p)
    (hpow : p ≤ ∑ i ∈ Finset.range S, ‖patternSpec w (fun t => q (t - m0)) L (i * h) k‖ ^ 2)
    (hedge : ∑ i ∈ Finset.range S, edgeEffect w (fun t => q (t - m0)) L (i * h) (m1 - m0) ^ 2 ≤
      ρ ^ 2 * ∑ i ∈ Finset.range S, ‖patternSpec w (fun t => q (t - m0)) L (i * h) k‖ ^ 2)
    (h0 : ∑ i ∈ Finset.range S, ‖patternSpec w (fun t => e0 t.toNat) L (i * h) k‖ ^ 2 ≤ η ^ 2 * p)
    (h1 : ∑ i ∈ Finset.range S, ‖patternSpec w (fun t => e1 t.toNat) L (i * h) k‖ ^ 2 ≤ η ^ 2 * p)
    {x y : List ℝ} (hx : x = recordOf (fun t => q (t - m0) + e0 t.toNat) n 0) (hy : y = recordOf (fun t => q (t - m1) + e1 t.toNat) n 0) :
    0 < ∑ i ∈ Finset.range S, ‖Tf.spectrum w .none (Tf.segment x L (i * h)) k‖ ^ 2 ∧
    ∑ i ∈ Finset.range S, ‖Tf.spectrum w .none (Tf.segment y L (i * h)) k - twiddle L ((m1 - m0) * k) * Tf.spectrum w .none (Tf.segment x L (i * h)) k‖ ^ 2 ≤
      jointPart ρ η ^ 2 * ∑ i ∈ Finset.range S, ‖Tf.spectrum w .none (Tf.segment x L (i * h)) k‖ ^ 2 := by
  set A : ℕ → ℂ := fun i => patternSpec w (fun t => q (t - m0)) L (i * h) k with hA
  set N0 : ℕ → ℂ := fun i => patternSpec w (fun t => e0 t.toNat) L (i * h) k with hN0
  set N1 : ℕ → ℂ := fun i => patternSpec w (fun t => e1 t.toNat) L (i * h) k with hN1
  set Z : ℕ → ℂ := fun i => patternSpec w (fun t => q (t - m1)) L (i * h) k with hZ
  have eX : ∀ i ∈ Finset.range S, Tf.spectrum w .none (Tf.segment x L (i * h)) k = A i + N0 i := by
    intro i hi
    rw [hx, spectrum_pattern _ _ n L _ k (hfit i hi), patternSpec_add]
  have eY : ∀ i ∈ Finset.range S, Tf.spectrum w .none (Tf.segment y L (i * h)) k = Z i + N1 i := by
    intro i hi
    rw [hy, spectrum_pattern _ _ n L _ k (hfit i hi), patternSpec_add]
  have eZ : ∀ i ∈ Finset.range S, ‖Z i - twiddle L ((m1 - m0) * k) * A i‖ ≤ edgeEffect w (fun t => q (t - m0)) L (i * h) (m1 - m0) := by
    intro i hi
    have := spectrum_shift w (fun t => q (t - m0)) n L (i * h) k (m1 - m0) (hfit i hi)
    have e : recordOf (fun t => q (t - m0)) n (m1 - m0) = recordOf (fun t => q (t - m1)) n 0 := by
      unfold recordOf
      refine List.map_congr_left fun j _ => ?_
      simp only
      congr 1
      ring
    rwa [e, spectrum_pattern _ _ n L _ k (hfit i hi)] at this
  set a := Real.sqrt (∑ i ∈ Finset.range S, ‖A i‖ ^ 2) with ha
  have hA0 : 0 ≤ ∑ i ∈ Finset.range S, ‖A i‖ ^ 2 := Finset.sum_nonneg fun _ _ => by positivity
  have ha2 : a ^ 2 = ∑ i ∈ Finset.range S, ‖A i‖ ^ 2 := Real.sq_sqrt hA0
  have hapos : 0 < a := Real.sqrt_pos.2 (lt_of_lt_of_le hp0 hpow)
  have hpa : η ^ 2 * p ≤ (η * a) ^ 2 := by
    rw [mul_pow, ha2]
    exact mul_le_mul_of_nonneg_left hpow (sq_nonneg _)
  set X2 := ∑ i ∈ Finset.range S, ‖Tf.spectrum w .none (Tf.segment x L (i * h)) k‖ ^ 2 with hX2
  have hX0 : 0 ≤ X2 := Finset.sum_nonneg fun _ _ => by positivity
  have hlow : (1 - η) * a ≤ Real.sqrt X2 := by
    have := l2_add (Finset.range S) (fun i => ‖A i + N0 i‖) (fun i => ‖N0 i‖) (A := Real.sqrt X2) (B := η * a) (Real.sqrt_nonneg _) (by positivity)
      (by rw [Real.sq_sqrt hX0, hX2]; exact le_of_eq (Finset.sum_congr rfl fun i hi => by rw [eX i hi])) (h0.trans hpa)
    have h2 : a ^ 2 ≤ (Real.sqrt X2 + η * a) ^ 2 := by
      rw [ha2]
      refine le_trans (Finset.sum_le_sum fun i _ => ?_) this
      refine pow_le_pow_left₀ (norm_nonneg _) ?_ 2
      have := norm_sub_le (A i + N0 i) (N0 i)
      rwa [add_sub_cancel_right] at this
    have := le_of_sq_le_sq h2 (by positivity)
    linarith
  have hX : 0 < X2 := by
    have : 0 < Real.sqrt X2 := lt_of_lt_of_le (mul_pos (by linarith) hapos) hlow
    exact Real.sqrt_pos.1 this
  refine ⟨hX, ?_⟩
  have hup := l2_add (Finset.range S) (fun i => edgeEffect w (fun t => q (t - m0)) L (i * h) (m1 - m0)) (fun i => ‖N1 i‖) (A := ρ * a) (B := η * a)
    (by positivity) (by positivity) (by rw [mul_pow, ha2]; exact hedge) (h1.trans hpa)
  have hup2 := l2_add (Finset.range S) (fun i => edgeEffect w (fun t => q (t - m0)) L (i * h) (m1 - m0) + ‖N1 i‖) (fun i => ‖N0 i‖) (A := ρ * a + η * a) (B := η * a)
    (by positivity) (by positivity) hup (h0.trans hpa)
  calc _ ≤ ∑ i ∈ Finset.range S, (edgeEffect w (fun t => q (t - m0)) L (i * h) (m1 - m0) + ‖N1 i‖ + ‖N0 i‖) ^ 2 := by
        refine Finset.sum_le_sum fun i hi => pow_le_pow_left₀ (norm_nonneg _) ?_ 2
        rw [eX i hi, eY i hi]
        have e : Z i + N1 i - twiddle L ((m1 - m0) * k) * (A i + N0 i) = (Z i - twiddle L ((m1 - m0) * k) * A i) + N1 i - twiddle L ((m1 - m0) * k) * N0 i := by ring
        rw [e]
        refine (norm_sub_le _ _).trans (add_le_add ((norm_add_le _ _).trans (add_le_add (eZ i hi) le_rfl)) ?_)
        rw [norm_mul, norm_twiddle, one_mul]
    _ ≤ (ρ * a + η * a + η * a) ^ 2 := hup2
    _ = jointPart ρ η ^ 2 * ((1 - η) * a) ^ 2 := by
        unfold jointPart
        have : 1 - η ≠ 0 := by linarith
        field_simp
        ring
    _ ≤ jointPart ρ η ^ 2 * X2 := by
        refine mul_le_mul_of_nonneg_left ?_ (sq_nonneg _)
        rw [← Real.sq_sqrt hX0]
        exact pow_le_pow_left₀ (mul_nonneg (by linarith) hapos.le) hlow 2

theorem jointPart_nonneg {ρ η : ℝ} (hρ : 0 ≤ ρ) (hη : 0 ≤ η) (hη1 : η < 1) : 0 ≤ jointPart ρ η := div_nonneg (by positivity) (by linarith)

/-- The delays of a data set in which a pattern passes, with disturbances. -/
theorem noisy_near {ham : ℕ → List ℝ} {navgs n L S K : ℕ} {fl ρ η : ℝ} {V : Vec}
    {P : String → Vec} {q : ℤ → ℝ} {m : String → ℤ} {ref : String} {d : DataSet} (hdt : 0 < d.dt) (hρ0 : 0 ≤ ρ) (hη : 0 ≤ η) (hη1 : η < 1)
    (hp : PassingPattern ham navgs n L S K fl ρ V P q m ref d) (hshort : ∀ c ∈ d.cols, 2 * |((m c.1 - m ref : ℤ) : ℝ)| < (1 - jointPart ρ η) * L)
    {p : ℕ → ℝ} (hpow : ∀ k ≤ K, 0 < p k ∧ p k ≤ binPower (ham L) (fun t => q (t - m ref)) L S k) {e : String → ℕ → ℝ} (hq : Quiet (ham L) L S K η p d e) {cohLim : Option ℝ}
    (hcl : ∀ l, cohLim = some l → l < ((1 - jointPart ρ η) / (1 + jointPart ρ η)) ^ 2) {method : String} (hm : method = "multi" ∨ method = "fit") :
    DelaysNear ham navgs cohLim fl method V P ref (withNoise d e) (edgeError method (jointPart ρ η) (L * d.dt) K) := by
  have hh : L - L / 2 = L - ⌊(L : ℝ) * 0.5⌋₊ := by
    congr 1
    symm
    have h2 : (L : ℝ) * 0.5 = (L : ℝ) / ((2 : ℕ) : ℝ) := by push_cast; ring
    rw [h2, Nat.floor_div_eq_div]
  have hL0 : 0 < L := by have := hp.band; omega
  have hLd : (0 : ℝ) < L * d.dt := by have : (0 : ℝ) < L := by exact_mod_cast hL0
                                      positivity
  have hbelow : ∀ k : ℕ, k ≤ L / 2 → (k : ℝ) / (L * d.dt) < fl → k ≤ K := by
    intro k hk h1
    by_contra hc
    have hc' : K + 1 ≤ k := by omega
    have h2 := hp.band.2.2.2 (by omega)
    have : ((K : ℝ) + 1) / (L * d.dt) ≤ k / (L * d.dt) := by
      apply div_le_div_of_nonneg_right _ hLd.le
      exact_mod_cast hc'
    linarith
  have hfit : ∀ i ∈ Finset.range S, i * (L - L / 2) + L ≤ n := by
    intro i hi
    rw [Finset.mem_range] at hi
    have : i * (L - L / 2) ≤ (S - 1) * (L - L / 2) := Nat.mul_le_mul_right _ (by omega)
    have := hp.segments.2.2.2.1
    omega
  intro x hx c hc
  simp only [withNoise, List.mem_map] at hx hc
  obtain ⟨c0, hc0, hce0⟩ := hx
  obtain ⟨c1, hc1, rfl⟩ := hc
  obtain ⟨rfl, rfl⟩ := Prod.mk.inj hce0
  have e0 : (c0.2.zipIdx.map fun r => r.1 + e c0.1 r.2) = recordOf (fun t => q (t - m c0.1) + e c0.1 t.toNat) n 0 := by
    rw [hp.recorded c0 hc0, noisy_record]
  have e1 : (c1.2.zipIdx.map fun r => r.1 + e c1.1 r.2) = recordOf (fun t => q (t - m c1.1) + e c1.1 t.toNat) n 0 := by
    rw [hp.recorded c1 hc1, noisy_record]
  have hlen : ∀ (a : ℤ → ℝ), (recordOf a n 0).length = n := fun a => by simp [recordOf]
  obtain ⟨⟨d1, d2, d3, k1, k2⟩, f1, f2, f3, k3, k4⟩ := frozen_near c0.1 c1.1 (c0.2.zipIdx.map fun r => r.1 + e c0.1 r.2) (c1.2.zipIdx.map fun r => r.1 + e c1.1 r.2)
    n navgs L (L - L / 2) S K (by rw [e0, hlen]) (by rw [e1, hlen]) (m c1.1 - m c0.1) d.dt 0.5 fl (jointPart ρ η) ham .none
    cohLim hdt (by norm_num) hp.segments.1 hh hp.segments.2 (jointPart_nonneg hρ0 hη hη1) (hshort c1 hc1)
    (fun k hk hkf => by
      have hkK := hbelow k hk hkf
      exact close_noisy hρ0 hη hη1 hfit (hpow k hkK).1 (hpow k hkK).2 (hp.edges c1 hc1 k hk hkf).2 (hq c0 hc0 k hkK) (hq c1 hc1 k hkK) e0 e1)
    hcl hp.band.1 hp.band.2.1 hp.band.2.2.1 hp.band.2.2.2
  rw [hp.arrival c1 hc1] at k2 k4
  rcases hm with rfl | rfl
  · exact ⟨d1, d2, d3, k1, by unfold edgeError; rw [if_neg (by decide +kernel)]; exact k2⟩
  · exact ⟨f1, f2, f3, k3, by unfold edgeError; rw [if_pos rfl]; exact k4⟩

variable {Ω : Type} [MeasurableSpace Ω] {Pr : Measure Ω} [IsProbabilityMeasure Pr]

/-- Expected power of white noise in one bin. -/
theorem power_expect {u : ℕ → Ω → ℝ} {σ : ℝ} (hu : WhiteNoise Pr u σ) {w : List ℝ} {n L S : ℕ} (hL : 0 < L) (hw : w.length = L) (hS : AsManyAsFit n L (L - L / 2) S) (k : ℕ) :
    Integrable (fun ω => binPower w (fun t => u t.toNat ω) L S k) Pr ∧
      ∫ ω, binPower w (fun t => u t.toNat ω) L S k ∂Pr = S * (σ ^ 2 * (w.map fun v => v ^ 2).sum) := by
  have hov : L / 2 < L := Nat.div_lt_self hL (by norm_num)
  have hS0 : (0 : ℝ) < S := by exact_mod_cast hS.2.1
  have hLn : L ≤ n := by have := hS.2.2.1; omega
  have hSe : S = (n - L / 2) / (L - L / 2) := segs_unique hS (segs_fit hLn hov)
  have hfit : ∀ i ∈ List.range S, i * (L - L / 2) + L ≤ n := by
    intro i hi
    rw [List.mem_range] at hi
    have : i * (L - L / 2) ≤ (S - 1) * (L - L / 2) := Nat.mul_le_mul_right _ (by omega)
    have := hS.2.2.1
    omega
  have e : (fun ω => binPower w (fun t => u t.toNat ω) L S k) = fun ω => S * psd 1 (spectra w .none L (L / 2) ((List.range n).map fun i => u i ω) k) := by
    funext ω
    have h1 : ((List.range n).map fun i => u i ω) = recordOf (fun t => u t.toNat ω) n 0 := by
      unfold recordOf
      exact List.map_congr_left fun j _ => by simp
    have h2 : spectra w .none L (L / 2) ((List.range n).map fun i => u i ω) k = (List.range S).map fun i => patternSpec w (fun t => u t.toNat ω) L (i * (L - L / 2)) k := by
      rw [h1]
      unfold spectra segStarts
      rw [show (recordOf (fun t => u t.toNat ω) n 0).length = n by simp [recordOf], ← hSe, List.map_map]
      exact List.map_congr_left fun i hi => spectrum_pattern _ _ n L _ k (hfit i hi)
    rw [h2]
    unfold psd binPower
    rw [List.map_map, List.length_map, List.length_range, one_mul, mul_div_cancel₀ _ hS0.ne']
    simp only [Function.comp_def, Complex.normSq_eq_norm_sq]
    rw [← Finset.sum_map_toList (Finset.range S)]
    exact (List.Perm.sum_eq (List.Perm.map _ (List.perm_of_nodup_nodup_toFinset_eq List.nodup_range (Finset.nodup_toList _) (by ext; simp)))).symm
  obtain ⟨i1, i2⟩ := psd_expect hu 1 w .none hL hLn hov k
  rw [e]
  refine ⟨i1.const_mul _, ?_⟩
  rw [integral_const_mul, i2, (coef_energy .none hw k).2 rfl, one_mul]

/-- White noise exceeds the part `η` of the power `p k` in one of the bins `0, …, K` at one of the sensors with at most this probability. -/
theorem quiet_ids {ι : Type} {u : ι → ℕ → Ω → ℝ} {σ : ℝ} (hu : ∀ l, WhiteNoise Pr (u l) σ) {w : List ℝ} {n L S K : ℕ} (hL : 0 < L) (hw : w.length = L) (hS : AsManyAsFit n L (L - L / 2) S)
    {η : ℝ} (hη : 0 < η) {p : ℕ → ℝ} (hp : ∀ k ≤ K, 0 < p k) (ids : List ι) :
    Pr.real {ω | ¬ ∀ i ∈ ids, ∀ k ≤ K, binPower w (fun t => u i t.toNat ω) L S k ≤ η ^ 2 * p k} ≤ ids.length * ∑ k ∈ Finset.range (K + 1), S * (σ ^ 2 * (w.map fun v => v ^ 2).sum) / (η ^ 2 * p k) := by
  have one : ∀ l, ∀ k ∈ Finset.range (K + 1), Pr.real {ω | η ^ 2 * p k ≤ binPower w (fun t => u l t.toNat ω) L S k} ≤ S * (σ ^ 2 * (w.map fun v => v ^ 2).sum) / (η ^ 2 * p k) := by
    intro l k hk
    have hpk := hp k (by rw [Finset.mem_range] at hk; omega)
    obtain ⟨i1, i2⟩ := power_expect (hu l) hL hw hS k
    have hmk := mul_meas_ge_le_integral_of_nonneg (Filter.Eventually.of_forall fun ω => show 0 ≤ binPower w (fun t => u l t.toNat ω) L S k from
      Finset.sum_nonneg fun _ _ => by positivity) i1 (η ^ 2 * p k)
    rw [i2] at hmk
    rw [le_div_iff₀ (by positivity), mul_comm]
    exact hmk
  have col : ∀ l, Pr.real (⋃ k ∈ Finset.range (K + 1), {ω | η ^ 2 * p k ≤ binPower w (fun t => u l t.toNat ω) L S k}) ≤
      ∑ k ∈ Finset.range (K + 1), S * (σ ^ 2 * (w.map fun v => v ^ 2).sum) / (η ^ 2 * p k) := fun l =>
    (measureReal_biUnion_finset_le _ _).trans (Finset.sum_le_sum (one l))
  induction ids with
  | nil => simp
  | cons c l ih =>
    refine le_trans (measureReal_mono (s₂ := (⋃ k ∈ Finset.range (K + 1), {ω | η ^ 2 * p k ≤ binPower w (fun t => u c t.toNat ω) L S k}) ∪
      {ω | ¬ ∀ c ∈ l, ∀ k ≤ K, binPower w (fun t => u c t.toNat ω) L S k ≤ η ^ 2 * p k}) ?_ (measure_ne_top _ _)) ?_
    · intro ω hω
      rw [Set.mem_ofPred_eq] at hω
      rw [Set.mem_union, Set.mem_ofPred_eq]
      by_contra hc
      push Not at hc
      refine hω (List.forall_mem_cons.2 ⟨fun k hk => ?_, hc.2⟩)
      have h2 := hc.1
      simp only [Set.mem_iUnion, Set.mem_ofPred_eq, not_exists, not_le] at h2
      exact (h2 k (Finset.mem_range.2 (by omega))).le
    · refine (measureReal_union_le _ _).trans ?_
      rw [List.length_cons]
      push_cast
      linarith [col c]

theorem quiet_probability {u : String → ℕ → Ω → ℝ} {σ : ℝ} (hu : ∀ l, WhiteNoise Pr (u l) σ) {w : List ℝ} {n L S K : ℕ} (hL : 0 < L) (hw : w.length = L) (hS : AsManyAsFit n L (L - L / 2) S)
    {η : ℝ} (hη : 0 < η) {p : ℕ → ℝ} (hp : ∀ k ≤ K, 0 < p k) (d : DataSet) :
    Pr.real {ω | ¬ Quiet w L S K η p d fun l i => u l i ω} ≤ d.cols.length * ∑ k ∈ Finset.range (K + 1), S * (σ ^ 2 * (w.map fun v => v ^ 2).sum) / (η ^ 2 * p k) := by
  have := quiet_ids hu hL hw hS hη hp (d.cols.map Prod.fst)
  simp only [List.forall_mem_map, List.length_map] at this
  exact this

theorem power_pos {ham : ℕ → List ℝ} {navgs n L S K : ℕ} {fl ρ : ℝ} {V : Vec} {P : String → Vec} {q : ℤ → ℝ} {m : String → ℤ} {ref : String} {d : DataSet} (hdt : 0 < d.dt)
    (href : ref ∈ d.cols.map Prod.fst) (hp : PassingPattern ham navgs n L S K fl ρ V P q m ref d) (k : ℕ) (hk : k ≤ K) : 0 < binPower (ham L) (fun t => q (t - m ref)) L S k := by
  obtain ⟨c, hcm, -⟩ := List.mem_map.1 href
  refine (hp.edges c hcm k (hk.trans hp.band.2.1) (lt_of_le_of_lt ?_ hp.band.2.2.1)).1
  have : (k : ℝ) ≤ K := by exact_mod_cast hk
  have hLd : (0 : ℝ) ≤ L * d.dt := by positivity
  exact div_le_div_of_nonneg_right this hLd

theorem noise_names (d : DataSet) (e : String → ℕ → ℝ) : (withNoise d e).cols.map Prod.fst = d.cols.map Prod.fst := by
  simp [withNoise, Function.comp_def]

/-- **C237.**  Two data sets hold records of patterns passing the true places `P` with the velocities `V1`, `V2`, and every sensor adds a disturbance, at most the part `η` of the spectrum of
the pattern in the bins used.  `compute_predicted_position` with these cloud vectors returns NaN or, if the sensors used are where the table says, a place within the distance that follows from
the part `(ρ + 2 η) / (1 - η)` of edge effects and disturbances together. -/
theorem C237_disturbed (x : Cmv.Ext) (nanD : List (Option ℝ) → List (Option ℝ) → Option ℝ) {sort : SortValues String} (hs : IsSortValues sort) (ham : ℕ → List ℝ)
    (d1 d2 : DataSet) (pts : List (String × Vec)) (hnd : (pts.map Prod.fst).Nodup) (hc1 : d1.cols.map Prod.fst = pts.map Prod.fst)
    (hc2 : d2.cols.map Prod.fst = pts.map Prod.fst) (hdt1 : 0 < d1.dt) (hdt2 : 0 < d2.dt) (ref : String) (href : ref ∈ pts.map Prod.fst) (P : String → Vec)
    (navgs n1 n2 L1 L2 S1 S2 K1 K2 : ℕ) (fl ρ1 ρ2 η1 η2 : ℝ) (hρ1 : 0 ≤ ρ1) (hρ2 : 0 ≤ ρ2) (hη1 : 0 ≤ η1) (hη2 : 0 ≤ η2) (hl1 : η1 < 1) (hl2 : η2 < 1)
    (V1 V2 : Vec) (hX : V1.1 * V2.2 - V1.2 * V2.1 ≠ 0) (q1 q2 : ℤ → ℝ)
    (m1 m2 : String → ℤ) (h1 : PassingPattern ham navgs n1 L1 S1 K1 fl ρ1 V1 P q1 m1 ref d1) (h2 : PassingPattern ham navgs n2 L2 S2 K2 fl ρ2 V2 P q2 m2 ref d2)
    (hs1 : ∀ c ∈ d1.cols, 2 * |((m1 c.1 - m1 ref : ℤ) : ℝ)| < (1 - jointPart ρ1 η1) * L1) (hs2 : ∀ c ∈ d2.cols, 2 * |((m2 c.1 - m2 ref : ℤ) : ℝ)| < (1 - jointPart ρ2 η2) * L2)
    (e1 e2 : String → ℕ → ℝ) (hq1 : Quiet (ham L1) L1 S1 K1 η1 (binPower (ham L1) (fun t => q1 (t - m1 ref)) L1 S1) d1 e1)
    (hq2 : Quiet (ham L2) L2 S2 K2 η2 (binPower (ham L2) (fun t => q2 (t - m2 ref)) L2 S2) d2 e2)
    (cohLim : Option ℝ) (hcl : ∀ l, cohLim = some l → l < ((1 - jointPart ρ1 η1) / (1 + jointPart ρ1 η1)) ^ 2 ∧ l < ((1 - jointPart ρ2 η2) / (1 + jointPart ρ2 η2)) ^ 2) (method : String)
    (hm : method = "multi" ∨ method = "fit") (mode : String) (hmode : mode ∈ ["coherence", "preavg", "global_coherence", "distance", "all"]) (n : ℤ) :
    ∃ pos s1 s2, predictData x nanD sort ham [withNoise d1 e1, withNoise d2 e2] pts false ref (some [V1, V2]) mode n navgs cohLim (some fl) method = .ok (pos, s1, s2) ∧
      ((∀ l ∈ s1.map Prod.fst, P l = posOf pts l) → (∀ l ∈ s2.map Prod.fst, P l = posOf pts l) →
        pos = (.nan, .nan) ∨ ∃ y : Vec, pos = (.fin y.1, .fin y.2) ∧
          |V1.1 * V2.2 - V1.2 * V2.1| * pdist y (P ref) ≤ (edgeError method (jointPart ρ1 η1) (L1 * d1.dt) K1 * magnitude V1 +
            edgeError method (jointPart ρ2 η2) (L2 * d2.dt) K2 * magnitude V2) * (magnitude V1 * magnitude V2)) := by
  exact predict_of x nanD hs ham _ _ pts hnd ((noise_names _ _).trans hc1) ((noise_names _ _).trans hc2) ref href P navgs fl _ _
    (edgeError_nonneg (jointPart_nonneg hρ1 hη1 hl1) (by positivity)) (edgeError_nonneg (jointPart_nonneg hρ2 hη2 hl2) (by positivity)) V1 V2 hX cohLim method
    (noisy_near hdt1 hρ1 hη1 hl1 h1 hs1 (fun k hk => ⟨power_pos hdt1 (hc1 ▸ href) h1 k hk, le_rfl⟩) hq1 (fun l hl => (hcl l hl).1) hm)
    (noisy_near hdt2 hρ2 hη2 hl2 h2 hs2 (fun k hk => ⟨power_pos hdt2 (hc2 ▸ href) h2 k hk, le_rfl⟩) hq2 (fun l hl => (hcl l hl).2) hm) mode hmode n

/-- Two events that are each unlikely. -/
theorem prob_two {A B C : Set Ω} {a b : ℝ} (hA : Pr.real Aᶜ ≤ a) (hB : Pr.real Bᶜ ≤ b) (h : A ∩ B ⊆ C) : Pr.real Cᶜ ≤ a + b := by
  refine (measureReal_mono (s₂ := Aᶜ ∪ Bᶜ) ?_ (measure_ne_top _ _)).trans ((measureReal_union_le _ _).trans (add_le_add hA hB))
  rw [← Set.compl_inter]
  exact Set.compl_subset_compl.2 h

/-- **C237.**  White noise at every sensor: `compute_predicted_position` fails to return NaN or a place within the bound with probability at most the number of sensors times the sum, over
both data sets and the bins used, of the expected power of the noise over the part `η²` of the power of the pattern. -/
theorem C237_probability (x : Cmv.Ext) (nanD : List (Option ℝ) → List (Option ℝ) → Option ℝ) {sort : SortValues String} (hs : IsSortValues sort) (ham : ℕ → List ℝ)
    (d1 d2 : DataSet) (pts : List (String × Vec)) (hnd : (pts.map Prod.fst).Nodup) (hc1 : d1.cols.map Prod.fst = pts.map Prod.fst)
    (hc2 : d2.cols.map Prod.fst = pts.map Prod.fst) (hdt1 : 0 < d1.dt) (hdt2 : 0 < d2.dt) (ref : String) (href : ref ∈ pts.map Prod.fst) (P : String → Vec)
    (navgs n1 n2 L1 L2 S1 S2 K1 K2 : ℕ) (hw1 : (ham L1).length = L1) (hw2 : (ham L2).length = L2)
    (fl ρ1 ρ2 η1 η2 : ℝ) (hρ1 : 0 ≤ ρ1) (hρ2 : 0 ≤ ρ2) (hη1 : 0 < η1) (hη2 : 0 < η2) (hl1 : η1 < 1) (hl2 : η2 < 1)
    (V1 V2 : Vec) (hX : V1.1 * V2.2 - V1.2 * V2.1 ≠ 0) (q1 q2 : ℤ → ℝ)
    (m1 m2 : String → ℤ) (h1 : PassingPattern ham navgs n1 L1 S1 K1 fl ρ1 V1 P q1 m1 ref d1) (h2 : PassingPattern ham navgs n2 L2 S2 K2 fl ρ2 V2 P q2 m2 ref d2)
    (hs1 : ∀ c ∈ d1.cols, 2 * |((m1 c.1 - m1 ref : ℤ) : ℝ)| < (1 - jointPart ρ1 η1) * L1) (hs2 : ∀ c ∈ d2.cols, 2 * |((m2 c.1 - m2 ref : ℤ) : ℝ)| < (1 - jointPart ρ2 η2) * L2)
    (u1 u2 : String → ℕ → Ω → ℝ) (σ1 σ2 : ℝ) (hu1 : ∀ l, WhiteNoise Pr (u1 l) σ1) (hu2 : ∀ l, WhiteNoise Pr (u2 l) σ2)
    (cohLim : Option ℝ) (hcl : ∀ l, cohLim = some l → l < ((1 - jointPart ρ1 η1) / (1 + jointPart ρ1 η1)) ^ 2 ∧ l < ((1 - jointPart ρ2 η2) / (1 + jointPart ρ2 η2)) ^ 2) (method : String)
    (hm : method = "multi" ∨ method = "fit") (mode : String) (hmode : mode ∈ ["coherence", "preavg", "global_coherence", "distance", "all"]) (n : ℤ) :
    Pr.real {ω | ∃ pos s1 s2, predictData x nanD sort ham [withNoise d1 fun l i => u1 l i ω, withNoise d2 fun l i => u2 l i ω] pts false ref (some [V1, V2]) mode n navgs cohLim (some fl) method =
          .ok (pos, s1, s2) ∧
        ((∀ l ∈ s1.map Prod.fst, P l = posOf pts l) → (∀ l ∈ s2.map Prod.fst, P l = posOf pts l) →
          pos = (.nan, .nan) ∨ ∃ y : Vec, pos = (.fin y.1, .fin y.2) ∧
            |V1.1 * V2.2 - V1.2 * V2.1| * pdist y (P ref) ≤ (edgeError method (jointPart ρ1 η1) (L1 * d1.dt) K1 * magnitude V1 +
              edgeError method (jointPart ρ2 η2) (L2 * d2.dt) K2 * magnitude V2) * (magnitude V1 * magnitude V2))}ᶜ ≤
      pts.length * (∑ k ∈ Finset.range (K1 + 1), S1 * (σ1 ^ 2 * ((ham L1).map fun v => v ^ 2).sum) / (η1 ^ 2 * binPower (ham L1) (fun t => q1 (t - m1 ref)) L1 S1 k) +
        ∑ k ∈ Finset.range (K2 + 1), S2 * (σ2 ^ 2 * ((ham L2).map fun v => v ^ 2).sum) / (η2 ^ 2 * binPower (ham L2) (fun t => q2 (t - m2 ref)) L2 S2 k)) := by
  have n1 : d1.cols.length = pts.length := by simpa using congrArg List.length hc1
  have n2 : d2.cols.length = pts.length := by simpa using congrArg List.length hc2
  have b1 := quiet_probability hu1 (by have := h1.band; omega) hw1 h1.segments.2 hη1 (power_pos hdt1 (hc1 ▸ href) h1) d1
  have b2 := quiet_probability hu2 (by have := h2.band; omega) hw2 h2.segments.2 hη2 (power_pos hdt2 (hc2 ▸ href) h2) d2
  rw [n1] at b1
  rw [n2] at b2
  rw [mul_add]
  refine prob_two (A := {ω | Quiet (ham L1) L1 S1 K1 η1 (binPower (ham L1) (fun t => q1 (t - m1 ref)) L1 S1) d1 fun l i => u1 l i ω})
    (B := {ω | Quiet (ham L2) L2 S2 K2 η2 (binPower (ham L2) (fun t => q2 (t - m2 ref)) L2 S2) d2 fun l i => u2 l i ω}) b1 b2 ?_
  rintro ω ⟨g1, g2⟩
  rw [Set.mem_ofPred_eq] at g1 g2 ⊢
  exact C237_disturbed x nanD hs ham d1 d2 pts hnd hc1 hc2 hdt1 hdt2 ref href P navgs _ _ L1 L2 S1 S2 K1 K2 fl ρ1 ρ2 η1 η2 hρ1 hρ2 hη1.le hη2.le hl1 hl2 V1 V2 hX q1 q2 m1 m2 h1 h2 hs1 hs2
    _ _ g1 g2 cohLim hcl method hm mode hmode n

/-- **C237.**  Sensors that are mixed up are found from records with noise.  The procedure of demos/field_reassignment_demo.py (mode 'all') with the delays found in the two noisy data sets
fails to return the true assignment with at most the given probability; `p` is a lower bound of the power of the pattern at all the sensors to be reassigned. -/
theorem C237_reassigned (lsa : LSA) (hl : IsLSA lsa) (nan : ℝ) {sort : SortValues String} (hs : IsSortValues sort) (n : ℤ) (ham : ℕ → List ℝ) (d1 d2 : DataSet)
    (refs : List String) (f : Frame String String ℝ) (hn : f.index.Nodup) (hcols : f.cols = ["E", "N"]) (hrn : refs.Nodup)
    (truth : List (String × String)) (P : String → Vec) (hmix : MixedUp (coords "E" "N" f) refs truth P)
    (hc1 : d1.cols.map Prod.fst = f.index) (hc2 : d2.cols.map Prod.fst = f.index) (hdt1 : 0 < d1.dt) (hdt2 : 0 < d2.dt)
    (navgs n1 n2 L1 L2 S1 S2 K1 K2 : ℕ) (hw1 : (ham L1).length = L1) (hw2 : (ham L2).length = L2)
    (fl ρ1 ρ2 η1 η2 : ℝ) (hρ1 : 0 ≤ ρ1) (hρ2 : 0 ≤ ρ2) (hη1 : 0 < η1) (hη2 : 0 < η2) (hl1 : η1 < 1) (hl2 : η2 < 1)
    (V1 V2 : Vec) (hX : V1.1 * V2.2 - V1.2 * V2.1 ≠ 0) (q1 q2 : ℤ → ℝ)
    (m1 m2 : String → ℤ) (h1 : ∀ ref ∈ refs, PassingPattern ham navgs n1 L1 S1 K1 fl ρ1 V1 P q1 m1 ref d1)
    (h2 : ∀ ref ∈ refs, PassingPattern ham navgs n2 L2 S2 K2 fl ρ2 V2 P q2 m2 ref d2) (hfit1 : AsManyAsFit n1 L1 (L1 - L1 / 2) S1) (hfit2 : AsManyAsFit n2 L2 (L2 - L2 / 2) S2)
    (hs1 : ∀ ref ∈ refs, ∀ c ∈ d1.cols, 2 * |((m1 c.1 - m1 ref : ℤ) : ℝ)| < (1 - jointPart ρ1 η1) * L1)
    (hs2 : ∀ ref ∈ refs, ∀ c ∈ d2.cols, 2 * |((m2 c.1 - m2 ref : ℤ) : ℝ)| < (1 - jointPart ρ2 η2) * L2)
    (p1 p2 : ℕ → ℝ) (hp1 : ∀ k ≤ K1, 0 < p1 k ∧ ∀ ref ∈ refs, p1 k ≤ binPower (ham L1) (fun t => q1 (t - m1 ref)) L1 S1 k)
    (hp2 : ∀ k ≤ K2, 0 < p2 k ∧ ∀ ref ∈ refs, p2 k ≤ binPower (ham L2) (fun t => q2 (t - m2 ref)) L2 S2 k)
    (u1 u2 : String → ℕ → Ω → ℝ) (σ1 σ2 : ℝ) (hu1 : ∀ l, WhiteNoise Pr (u1 l) σ1) (hu2 : ∀ l, WhiteNoise Pr (u2 l) σ2)
    (cohLim : Option ℝ) (hcl : ∀ l, cohLim = some l → l < ((1 - jointPart ρ1 η1) / (1 + jointPart ρ1 η1)) ^ 2 ∧ l < ((1 - jointPart ρ2 η2) / (1 + jointPart ρ2 η2)) ^ 2) (method : String)
    (hm : method = "multi" ∨ method = "fit")
    (hfar : ∀ k ∈ refs, ∀ l ∈ refs, k ≠ l → 2 * ((edgeError method (jointPart ρ1 η1) (L1 * d1.dt) K1 * magnitude V1 +
      edgeError method (jointPart ρ2 η2) (L2 * d2.dt) K2 * magnitude V2) * (magnitude V1 * magnitude V2)) <
      |V1.1 * V2.2 - V1.2 * V2.1| * pdist (posOf (coords "E" "N" f) k) (posOf (coords "E" "N" f) l))
    (hobl : ∀ p ∈ truth, p.1 ≠ p.2 → normSq V1 * edgeError method (jointPart ρ1 η1) (L1 * d1.dt) K1 < |along (P p.1 - posOf (coords "E" "N" f) p.1) V1| ∧
      normSq V2 * edgeError method (jointPart ρ2 η2) (L2 * d2.dt) K2 < |along (P p.1 - posOf (coords "E" "N" f) p.1) V2|) :
    Pr.real {ω | (∀ ref ∈ refs, ∃ c, FromDataSets ham navgs cohLim (some fl) method (withNoise d1 fun l i => u1 l i ω) (withNoise d2 fun l i => u2 l i ω) V1 V2 ref c) ∧
        ∀ data : String → CloudCase × CloudCase, (∀ ref ∈ refs, FromDataSets ham navgs cohLim (some fl) method (withNoise d1 fun l i => u1 l i ω) (withNoise d2 fun l i => u2 l i ω) V1 V2 ref (data ref)) →
        ∀ k, ∃ r f', reassign lsa nan sort "all" n data refs f k = .ok r ∧ r.Perm truth ∧
          remapPositions nan f r none = .ok f' ∧ f'.index = f.index ∧ ∀ l ∈ f.index, posOf (coords "E" "N" f') l = P l}ᶜ ≤
      f.index.length * (∑ k ∈ Finset.range (K1 + 1), S1 * (σ1 ^ 2 * ((ham L1).map fun v => v ^ 2).sum) / (η1 ^ 2 * p1 k) +
        ∑ k ∈ Finset.range (K2 + 1), S2 * (σ2 ^ 2 * ((ham L2).map fun v => v ^ 2).sum) / (η2 ^ 2 * p2 k)) := by
  have n1 : d1.cols.length = f.index.length := by simpa using congrArg List.length hc1
  have n2 : d2.cols.length = f.index.length := by simpa using congrArg List.length hc2
  have b1 := quiet_probability hu1 (by have := hfit1.1; omega) hw1 hfit1 hη1 (fun k hk => (hp1 k hk).1) d1
  have b2 := quiet_probability hu2 (by have := hfit2.1; omega) hw2 hfit2 hη2 (fun k hk => (hp2 k hk).1) d2
  rw [n1] at b1
  rw [n2] at b2
  rw [mul_add]
  refine prob_two (A := {ω | Quiet (ham L1) L1 S1 K1 η1 p1 d1 fun l i => u1 l i ω}) (B := {ω | Quiet (ham L2) L2 S2 K2 η2 p2 d2 fun l i => u2 l i ω}) b1 b2 ?_
  rintro ω ⟨g1, g2⟩
  rw [Set.mem_ofPred_eq] at g1 g2 ⊢
  have k1 : ∀ ref ∈ refs, DelaysNear ham navgs cohLim fl method V1 P ref (withNoise d1 fun l i => u1 l i ω) (edgeError method (jointPart ρ1 η1) (L1 * d1.dt) K1) := fun ref hr =>
    noisy_near hdt1 hρ1 hη1.le hl1 (h1 ref hr) (hs1 ref hr) (fun k hk => ⟨(hp1 k hk).1, (hp1 k hk).2 ref hr⟩) g1 (fun l hl => (hcl l hl).1) hm
  have k2 : ∀ ref ∈ refs, DelaysNear ham navgs cohLim fl method V2 P ref (withNoise d2 fun l i => u2 l i ω) (edgeError method (jointPart ρ2 η2) (L2 * d2.dt) K2) := fun ref hr =>
    noisy_near hdt2 hρ2 hη2.le hl2 (h2 ref hr) (hs2 ref hr) (fun k hk => ⟨(hp2 k hk).1, (hp2 k hk).2 ref hr⟩) g2 (fun l hl => (hcl l hl).2) hm
  have hix : (coords "E" "N" f).map Prod.fst = f.index := by
    unfold coords Frame.index
    rw [List.map_map]
    rfl
  refine ⟨fun ref hr => ?_, fun data hdata k => ?_⟩
  · obtain ⟨r1, -, e1, -⟩ := measured_of (hix ▸ hn) (((noise_names _ _).trans hc1).trans hix.symm) (k1 ref hr) (hmix.known ref hr)
    obtain ⟨r2, -, e2, -⟩ := measured_of (hix ▸ hn) (((noise_names _ _).trans hc2).trans hix.symm) (k2 ref hr) (hmix.known ref hr)
    exact ⟨_, r1, r2, e1, e2, rfl⟩
  · exact reassign_of lsa hl nan hs n ham _ _ data refs f hn hcols hrn truth P hmix ((noise_names _ _).trans hc1) ((noise_names _ _).trans hc2) navgs fl _ _
      (edgeError_nonneg (jointPart_nonneg hρ1 hη1.le hl1) (by positivity)) (edgeError_nonneg (jointPart_nonneg hρ2 hη2.le hl2) (by positivity)) V1 V2 hX cohLim method
      k1 k2 hdata hfar hobl k

/-! ## A concrete case -/

theorem part_demo : jointPart 0 0.05 = 2 / 19 := by norm_num [jointPart]

/-- Every sensor shows, in addition to its record, a twentieth of what the sensor a sees. -/
theorem quiet_demo (late : String) : Quiet (CmvTf.flatTop 6) 6 9 1 0.05 (binPower (CmvTf.flatTop 6) (fun t => CmvTf.upDown (t - (if "a" = late then 1 else 0 : ℤ))) 6 9) (passing late)
    (fun _ i => 0.05 * CmvTf.upDown (i - (if "a" = late then 1 else 0 : ℤ))) := by
  intro c _ k _
  unfold binPower
  rw [Finset.mul_sum]
  refine le_of_eq (Finset.sum_congr rfl fun i _ => ?_)
  have e : patternSpec (CmvTf.flatTop 6) (fun t => 0.05 * CmvTf.upDown ((t.toNat : ℤ) - (if "a" = late then 1 else 0 : ℤ))) 6 (i * (6 - 6 / 2)) k =
      ((0.05 : ℝ) : ℂ) * patternSpec (CmvTf.flatTop 6) (fun t => CmvTf.upDown (t - (if "a" = late then 1 else 0 : ℤ))) 6 (i * (6 - 6 / 2)) k := by
    unfold patternSpec
    rw [Finset.mul_sum]
    refine Finset.sum_congr rfl fun j _ => ?_
    have : (((i * (6 - 6 / 2) : ℕ) : ℤ) + j).toNat = i * (6 - 6 / 2) + j := by omega
    beta_reduce
    rw [this]
    push_cast
    ring
  rw [e, norm_mul, mul_pow, Complex.norm_real, Real.norm_eq_abs, sq_abs]

theorem short_demo (late ref : String) : ∀ c ∈ (passing late).cols,
    2 * |(((if c.1 = late then 1 else 0) - (if ref = late then 1 else 0) : ℤ) : ℝ)| < (1 - jointPart 0 0.05) * (6 : ℕ) := by
  intro c _
  rw [part_demo]
  by_cases h1 : c.1 = late <;> by_cases h2 : ref = late <;> simp only [h1, h2, if_true, if_false] <;> norm_num

/-- The hypotheses of C237 hold in a concrete case: two pulses and a disturbance of five percent. -/
example (x : Cmv.Ext) (nanD : List (Option ℝ) → List (Option ℝ) → Option ℝ) (sort : SortValues String) (hs : IsSortValues sort) :
    ∃ pos s1 s2, predictData x nanD sort CmvTf.flatTop
      [withNoise (passing "b") fun _ i => 0.05 * CmvTf.upDown (i - (if "a" = "b" then 1 else 0 : ℤ)), withNoise (passing "c") fun _ i => 0.05 * CmvTf.upDown (i - (if "a" = "c" then 1 else 0 : ℤ))]
      [("a", (3, 3)), ("b", (10, 0)), ("c", (0, 10))] false "a" (some [(1, 0), (0, 1)]) "all" 3 5 (some 0.6) (some 0.02) "multi" = .ok (pos, s1, s2) := by
  have hr : "a" = "a" ∨ "a" = "b" ∨ "a" = "c" := Or.inl rfl
  obtain ⟨pos, s1, s2, h, -⟩ := C237_disturbed x nanD hs CmvTf.flatTop (passing "b") (passing "c") [("a", (3, 3)), ("b", (10, 0)), ("c", (0, 10))] (by simp) (by simp [passing]) (by simp [passing])
    (by norm_num [passing]) (by norm_num [passing]) "a" (by simp) truePlace 5 30 30 6 6 9 9 1 1 0.02 0 0 0.05 0.05 le_rfl le_rfl (by norm_num) (by norm_num) (by norm_num) (by norm_num)
    (1, 0) (0, 1) (by norm_num) CmvTf.upDown CmvTf.upDown _ _ (passing_east "a" hr) (passing_north "a" hr) (short_demo "b" "a") (short_demo "c" "a") _ _ (quiet_demo "b") (quiet_demo "c") (some 0.6)
    (by intro l hl; cases hl; rw [part_demo]; norm_num) "multi" (Or.inl rfl) "all" (by simp) 3
  exact ⟨pos, s1, s2, h⟩

/-- The hypotheses of the probabilistic part: independent normal noise. -/
example : WhiteNoise (Measure.infinitePi fun _ : ℕ => ProbabilityTheory.gaussianReal 0 1) (fun i ω => ω i) 1 ∧ (CmvTf.flatTop 6).length = 6 ∧
    PassingPattern CmvTf.flatTop 5 30 6 9 1 0.02 0 (1, 0) truePlace CmvTf.upDown (fun l => if l = "b" then 1 else 0) "a" (passing "b") ∧
    ∀ c ∈ (passing "b").cols, 2 * |(((if c.1 = "b" then 1 else 0) - (if "a" = "b" then 1 else 0) : ℤ) : ℝ)| < (1 - jointPart 0 0.05) * (6 : ℕ) :=
  ⟨Noise.gauss_white, by simp [CmvTf.flatTop], passing_east "a" (Or.inl rfl), short_demo "b" "a"⟩

end SST.Props.NoisePredict
