import Verif.Props.FilterSeries

/-!
# Properties C251–C253: the phase between the samples of a transfer function, delay filters on coarse frequency grids,
resampling a filter
-/

namespace SST.Props.InterpPhase
open SST SST.Dft SST.Tf SST.Corr SST.Filters SST.Props.Apply SST.Spec.FilterSeries

/-! ## C251 -/

/-- An unwrapped phase of a value. -/
def PhaseOf (p : ℝ × ℂ) (v : ℝ) : Prop := (‖p.2‖ : ℂ) * Complex.exp (Complex.I * (v : ℂ)) = p.2

theorem phases (s : List (ℝ × ℂ)) : List.Forall₂ PhaseOf s (unwrapR (s.map fun p => Complex.arg p.2)) := by
  have h := unwrapR_congr (s.map fun p => Complex.arg p.2)
  rw [List.forall₂_map_left_iff] at h
  refine h.imp ?_
  rintro p v ⟨k, rfl⟩
  unfold PhaseOf
  have : Complex.exp (Complex.I * ((Complex.arg p.2 + 2 * Real.pi * k : ℝ) : ℂ)) = Complex.exp (Complex.arg p.2 * Complex.I) := by
    rw [Complex.exp_eq_exp_iff_exists_int]
    exact ⟨k, by push_cast; ring⟩
  rw [this, Complex.norm_mul_exp_arg_mul_I]

/-- Both interpolations use the same two neighbours. -/
theorem polar_neighbours (s : List (ℝ × ℂ)) (u : List ℝ) (hs : s.Pairwise fun a b => a.1 < b.1) (hp : List.Forall₂ PhaseOf s u)
    (hc : u.IsChain fun a b => |b - a| ≤ Real.pi) (f : ℝ) (z : ℂ)
    (h : polarAt (s.map fun p => (p.1, ‖p.2‖)) ((s.map Prod.fst).zip u) f = .ok z) :
    ∃ a ∈ s, ∃ b ∈ s, ∃ va vb : ℝ, a.1 < b.1 ∧ a.1 ≤ f ∧ f ≤ b.1 ∧ (∀ p ∈ s, ¬ (a.1 < p.1 ∧ p.1 < b.1)) ∧ PhaseOf a va ∧ PhaseOf b vb ∧ |vb - va| ≤ Real.pi ∧
      z = ((‖a.2‖ + (‖b.2‖ - ‖a.2‖) * ((f - a.1) / (b.1 - a.1)) : ℝ) : ℂ) *
        Complex.exp (Complex.I * ((va + (vb - va) * ((f - a.1) / (b.1 - a.1)) : ℝ) : ℂ)) := by
  induction s generalizing u with
  | nil => cases h
  | cons a s ih =>
    cases hp with
    | @cons _ va _ u ha hp =>
    cases s with
    | nil =>
      cases hp
      cases h
    | cons b s =>
      cases hp with
      | @cons _ vb _ u hb hp =>
      have hab : a.1 < b.1 := (List.pairwise_cons.1 hs).1 b (by simp)
      have hstep : |vb - va| ≤ Real.pi := by
        rw [List.isChain_cons_cons] at hc; exact hc.1
      unfold polarAt at h
      simp only [List.map_cons, List.zip_cons_cons] at h
      unfold interp1 at h
      simp only at h
      by_cases h1 : f < a.1
      · rw [if_pos h1] at h; cases h
      rw [if_neg h1, if_neg h1] at h
      by_cases h2 : f ≤ b.1
      · rw [if_pos h2, if_pos h2] at h
        refine ⟨a, by simp, b, by simp, va, vb, hab, not_lt.1 h1, h2, ?_, ha, hb, hstep, ?_⟩
        · rintro p hp' ⟨q1, q2⟩
          rcases List.mem_cons.1 hp' with rfl | hp'
          · exact lt_irrefl _ q1
          · rcases List.mem_cons.1 hp' with rfl | hp'
            · exact lt_irrefl _ q2
            · have := (List.pairwise_cons.1 (List.pairwise_cons.1 hs).2).1 p hp'
              linarith
        · have := Except.ok.inj h
          rw [← this]
          congr 3 <;> ring_nf
      · rw [if_neg h2, if_neg h2] at h
        obtain ⟨c, hcm, d, hdm, vc, vd, g1, g2, g3, g4, g5⟩ := ih (vb :: u) (List.pairwise_cons.1 hs).2 (List.Forall₂.cons hb hp)
          (by rw [List.isChain_cons_cons] at hc; exact hc.2) (by unfold polarAt; exact h)
        refine ⟨c, List.mem_cons_of_mem _ hcm, d, List.mem_cons_of_mem _ hdm, vc, vd, g1, g2, g3, ?_, g5⟩
        intro p hp'
        rcases List.mem_cons.1 hp' with rfl | hp'
        · rintro ⟨q1, -⟩
          have : p.1 < c.1 := (List.pairwise_cons.1 hs).1 c hcm
          linarith
        · exact g4 p hp'

theorem mapM_forall₂ {α β : Type} {g : α → Except PyErr β} {l : List α} {out : List β} (h : l.mapM g = .ok out) :
    List.Forall₂ (fun x y => g x = .ok y) l out := by
  induction l generalizing out with
  | nil => simp only [List.mapM_nil] at h; cases h; exact .nil
  | cons x l ih =>
    rw [List.mapM_cons] at h
    cases hx : g x with
    | error e => rw [hx] at h; cases h
    | ok y =>
      rw [hx] at h
      change ((do let b ← l.mapM g; pure (y :: b)) : Except PyErr (List β)) = _ at h
      cases hr : l.mapM g with
      | error e => rw [hr] at h; cases h
      | ok ys =>
        rw [hr] at h
        cases h
        exact .cons hx (ih hr)

/-- The step of the unwrapped phase is the argument of the quotient. -/
theorem step_arg {a b : ℝ × ℂ} {va vb : ℝ} (ha : PhaseOf a va) (hb : PhaseOf b vb) (ha0 : a.2 ≠ 0) (hb0 : b.2 ≠ 0) (hs : |vb - va| ≤ Real.pi)
    (hne : Complex.arg (b.2 / a.2) ≠ Real.pi) : vb - va = Complex.arg (b.2 / a.2) := by
  have hq : b.2 / a.2 = ((‖b.2‖ / ‖a.2‖ : ℝ) : ℂ) * Complex.exp ((vb - va : ℝ) * Complex.I) := by
    have h1 : (‖a.2‖ : ℂ) ≠ 0 := by exact_mod_cast norm_ne_zero_iff.2 ha0
    conv_lhs => rw [← ha, ← hb]
    rw [show ((vb - va : ℝ) * Complex.I : ℂ) = Complex.I * (vb : ℂ) - Complex.I * (va : ℂ) by push_cast; ring, Complex.exp_sub]
    push_cast
    have h2 := Complex.exp_ne_zero (Complex.I * (va : ℂ))
    field_simp
  have hr : 0 < ‖b.2‖ / ‖a.2‖ := div_pos (norm_pos_iff.2 hb0) (norm_pos_iff.2 ha0)
  rw [abs_le] at hs
  rcases eq_or_lt_of_le hs.1 with h | h
  · exfalso
    apply hne
    rw [hq, ← h, show (((-Real.pi : ℝ)) * Complex.I : ℂ) = -(Real.pi * Complex.I) by push_cast; ring, Complex.exp_neg, Complex.exp_pi_mul_I,
      Complex.arg_real_mul _ hr]
    rw [show ((-1 : ℂ))⁻¹ = -1 by norm_num, Complex.arg_neg_one]
  · rw [hq, Complex.exp_mul_I, ← Complex.ofReal_cos, ← Complex.ofReal_sin]
    have := Complex.arg_mul_cos_add_sin_mul_I hr (θ := vb - va) ⟨h, hs.2⟩
    push_cast at this ⊢
    rw [this]

/-- C251: between two neighbouring samples the phase runs linearly from the one to the other the shorter way round (and the
magnitude linearly), unless the two values are exactly opposite. -/
theorem C251_phase (tf : List (ℝ × ℂ)) (hd : (tf.map Prod.fst).Nodup) (newFreq : List ℝ) (out : List ℂ) (h : interpTf newFreq tf = .ok out) :
    List.Forall₂ (fun f z => ∃ a ∈ tf, ∃ b ∈ tf, a.1 < b.1 ∧ a.1 ≤ f ∧ f ≤ b.1 ∧ (∀ p ∈ tf, ¬ (a.1 < p.1 ∧ p.1 < b.1)) ∧
      (a.2 ≠ 0 → b.2 ≠ 0 → Complex.arg (b.2 / a.2) ≠ Real.pi →
        z = ((‖a.2‖ + (‖b.2‖ - ‖a.2‖) * ((f - a.1) / (b.1 - a.1)) : ℝ) : ℂ) * (a.2 / ‖a.2‖) *
          Complex.exp ((((f - a.1) / (b.1 - a.1) * Complex.arg (b.2 / a.2) : ℝ) : ℂ) * Complex.I))) newFreq out := by
  unfold interpTf at h
  simp only at h
  rw [Props.Tf.phase_list] at h
  refine (mapM_forall₂ h).imp ?_
  intro f z hz
  have hperm := sortF_perm tf
  obtain ⟨a, ha, b, hb, va, vb, h1, h2, h3, h4, h5, h6, h7, h8⟩ := polar_neighbours (sortF tf) _ (sortF_strict tf hd) (phases _) (unwrapR_chain _) f z hz
  refine ⟨a, hperm.mem_iff.1 ha, b, hperm.mem_iff.1 hb, h1, h2, h3, fun p hp => h4 p (hperm.mem_iff.2 hp), ?_⟩
  intro ha0 hb0 hne
  have hst := step_arg h5 h6 ha0 hb0 h7 hne
  rw [h8, hst, mul_assoc]
  congr 1
  have hna : (‖a.2‖ : ℂ) ≠ 0 := by exact_mod_cast norm_ne_zero_iff.2 ha0
  have : a.2 / (‖a.2‖ : ℂ) = Complex.exp (Complex.I * (va : ℂ)) := by
    rw [div_eq_iff hna, mul_comm]; exact h5.symm
  rw [this, ← Complex.exp_add]
  congr 1
  push_cast
  ring

/-- Between 1 at 0 Hz and i at 1 Hz. -/
example : Complex.arg (Complex.I / 1) ≠ Real.pi := by
  rw [div_one, Complex.arg_I]
  have := Real.pi_pos
  intro h; linarith

/-! ## C252 -/

/-- C252: a delay given at frequencies less than half the inverse of the delay apart is interpolated by the same delay at all
frequencies between. -/
theorem C252_delay (tf : List (ℝ × ℂ)) (hd : (tf.map Prod.fst).Nodup) (hl : 2 ≤ tf.length) (g τ : ℝ) (hg : 0 < g)
    (hv : ∀ p ∈ tf, p.2 = (g : ℂ) * Complex.exp (-(2 * Real.pi * p.1 * τ : ℝ) * Complex.I))
    (hgap : ∀ a ∈ tf, ∀ b ∈ tf, a.1 < b.1 → (∀ p ∈ tf, ¬ (a.1 < p.1 ∧ p.1 < b.1)) → (b.1 - a.1) * |τ| < 1 / 2)
    (newFreq : List ℝ) (hr : ∀ f ∈ newFreq, (∃ p ∈ tf, p.1 ≤ f) ∧ (∃ p ∈ tf, f ≤ p.1)) :
    interpTf newFreq tf = .ok (newFreq.map fun (f : ℝ) => (g : ℂ) * Complex.exp (-(2 * Real.pi * f * τ : ℝ) * Complex.I)) := by
  obtain ⟨out, ho⟩ := (Props.Tf.C53_range tf hd hl newFreq).2 hr
  rw [ho]
  congr 1
  have h := C251_phase tf hd newFreq out ho
  symm
  rw [← List.forall₂_eq_eq_eq, List.forall₂_map_left_iff]
  refine h.imp ?_
  rintro f z ⟨a, ha, b, hb, h1, h2, h3, h4, h5⟩
  have hgc : (g : ℂ) ≠ 0 := by exact_mod_cast hg.ne'
  have hva := hv a ha
  have hvb := hv b hb
  have ha0 : a.2 ≠ 0 := by rw [hva]; exact mul_ne_zero hgc (Complex.exp_ne_zero _)
  have hb0 : b.2 ≠ 0 := by rw [hvb]; exact mul_ne_zero hgc (Complex.exp_ne_zero _)
  have hn : ∀ θ : ℝ, ‖(g : ℂ) * Complex.exp (-(θ : ℝ) * Complex.I)‖ = g := by
    intro θ
    rw [norm_mul, show (-(θ : ℝ) * Complex.I : ℂ) = ((-θ : ℝ) : ℂ) * Complex.I by push_cast; ring, Complex.norm_exp_ofReal_mul_I, mul_one,
      Complex.norm_real, Real.norm_of_nonneg hg.le]
  have hna : ‖a.2‖ = g := by rw [hva, hn]
  have hnb : ‖b.2‖ = g := by rw [hvb, hn]
  have hq : b.2 / a.2 = Complex.exp (((-(2 * Real.pi * (b.1 - a.1) * τ) : ℝ) : ℂ) * Complex.I) := by
    rw [hva, hvb, mul_div_mul_left _ _ hgc, ← Complex.exp_sub]
    congr 1
    push_cast; ring
  have hgap' := hgap a ha b hb h1 h4
  have hlt : |2 * Real.pi * (b.1 - a.1) * τ| < Real.pi := by
    rw [abs_mul, abs_of_pos (by have := Real.pi_pos; have : 0 < b.1 - a.1 := by linarith
                                positivity)]
    have := Real.pi_pos
    nlinarith
  have harg : Complex.arg (b.2 / a.2) = -(2 * Real.pi * (b.1 - a.1) * τ) := by
    rw [abs_lt] at hlt
    rw [hq, Complex.exp_mul_I, Complex.arg_cos_add_sin_mul_I ⟨by linarith, by linarith⟩]
  have hne : Complex.arg (b.2 / a.2) ≠ Real.pi := by
    rw [harg]
    rw [abs_lt] at hlt
    intro hc; linarith
  have hz := h5 ha0 hb0 hne
  rw [hz, harg, hna, hnb, hva, mul_div_cancel_left₀ _ hgc, sub_self, zero_mul, add_zero, mul_assoc (g : ℂ), ← Complex.exp_add]
  congr 2
  have hba : (b.1 - a.1) ≠ 0 := by intro hc; linarith
  have e : (f - a.1) / (b.1 - a.1) * -(2 * Real.pi * (b.1 - a.1) * τ) = -(2 * Real.pi * (f - a.1) * τ) := by field_simp
  rw [e]
  push_cast
  ring

/-- C252: on a grid of frequencies `D` apart a longer delay is taken for the one nearest to zero that differs by a multiple of
`1/D`. -/
theorem C252_alias (tf : List (ℝ × ℂ)) (hd : (tf.map Prod.fst).Nodup) (hl : 2 ≤ tf.length) (g τ D : ℝ) (n : ℤ) (hg : 0 < g) (hD : 0 < D)
    (hv : ∀ p ∈ tf, p.2 = (g : ℂ) * Complex.exp (-(2 * Real.pi * p.1 * τ : ℝ) * Complex.I)) (hk : ∀ p ∈ tf, ∃ k : ℤ, p.1 = k * D)
    (hgap : ∀ a ∈ tf, ∀ b ∈ tf, a.1 < b.1 → (∀ p ∈ tf, ¬ (a.1 < p.1 ∧ p.1 < b.1)) → b.1 - a.1 = D) (hn : |τ - n / D| < 1 / (2 * D))
    (newFreq : List ℝ) (hr : ∀ f ∈ newFreq, (∃ p ∈ tf, p.1 ≤ f) ∧ (∃ p ∈ tf, f ≤ p.1)) :
    interpTf newFreq tf = .ok (newFreq.map fun (f : ℝ) => (g : ℂ) * Complex.exp (-(2 * Real.pi * f * (τ - n / D) : ℝ) * Complex.I)) := by
  apply C252_delay tf hd hl g (τ - n / D) hg _ _ newFreq hr
  · intro p hp
    rw [hv p hp]
    congr 1
    obtain ⟨k, hk⟩ := hk p hp
    rw [Complex.exp_eq_exp_iff_exists_int]
    refine ⟨-(k * n), ?_⟩
    rw [hk]
    have hDc : (D : ℂ) ≠ 0 := by exact_mod_cast hD.ne'
    push_cast
    field_simp
    ring
  · intro a ha b hb h1 h2
    rw [hgap a ha b hb h1 h2]
    rw [lt_div_iff₀ (by positivity)] at hn
    nlinarith

/-- C252: applied to a series, such a filter with a delay of `m` samples shifts the series circularly by `m` samples, whether or
not its frequencies are those of the data. -/
theorem C252_apply (dt : ℝ) (hdt : dt ≠ 0) (x : List ℝ) (hx : 2 ≤ x.length) (m : ℤ) (tf : List (ℝ × ℂ)) (hd : (tf.map Prod.fst).Nodup) (hl : 2 ≤ tf.length)
    (g : ℝ) (hg : 0 < g) (hv : ∀ p ∈ tf, p.2 = (g : ℂ) * Complex.exp (-(2 * Real.pi * p.1 * (m * dt) : ℝ) * Complex.I))
    (hgap : ∀ a ∈ tf, ∀ b ∈ tf, a.1 < b.1 → (∀ p ∈ tf, ¬ (a.1 < p.1 ∧ p.1 < b.1)) → (b.1 - a.1) * |m * dt| < 1 / 2)
    (hr : ∀ f ∈ fftfreq x.length dt, (∃ p ∈ tf, p.1 ≤ f) ∧ (∃ p ∈ tf, f ≤ p.1)) :
    applyFilter dt x tf = .ok ((roll x m).map fun (v : ℝ) => g * v) := by
  have hn : 0 < x.length := by omega
  have hH := C252_delay tf hd hl g (m * dt) hg hv hgap _ hr
  rw [applyFilter_core hx (not_above hr) hH]
  congr 1
  apply list_ext_at0 (by simp [roll_length])
  intro j hj
  simp only [List.length_map, List.length_range] at hj
  rw [at0_range_map _ hj, at0_map _ (by simp)]
  have hinv := inverse_dftR (roll x m) (m := j) (by rw [roll_length]; exact hj)
  rw [roll_length] at hinv
  have key : outC x ((fftfreq x.length dt).map fun (f : ℝ) => (g : ℂ) * Complex.exp (-(2 * Real.pi * f * (m * dt) : ℝ) * Complex.I)) j =
      (g : ℂ) * ((at0 (roll x m) j : ℝ) : ℂ) := by
    rw [← hinv]
    unfold outC
    rw [mul_div_assoc', Finset.mul_sum]
    congr 1
    apply Finset.sum_congr rfl
    intro k hk
    have hk' := Finset.mem_range.1 hk
    have hget : at0 ((fftfreq x.length dt).map fun (f : ℝ) => (g : ℂ) * Complex.exp (-(2 * Real.pi * f * (m * dt) : ℝ) * Complex.I)) k =
        (g : ℂ) * Complex.exp (-(2 * Real.pi * ((binNumber x.length k : ℝ) / (x.length * dt)) * (m * dt) : ℝ) * Complex.I) := by
      unfold at0
      rw [List.getElem?_map, fftfreq_get hk']
      rfl
    rw [hget, dftR_roll x m k hn]
    have : Complex.exp (-(2 * Real.pi * ((binNumber x.length k : ℝ) / (x.length * dt)) * (m * dt) : ℝ) * Complex.I) = twiddle x.length (m * k) := by
      rw [twiddle_period x.length hn (m * k) (m * binNumber x.length k)
        (by rw [← mul_sub]; exact Dvd.dvd.mul_left (binNumber_dvd _ _) _)]
      unfold twiddle
      congr 1
      have hc : (x.length : ℂ) ≠ 0 := by exact_mod_cast hn.ne'
      have hdc : (dt : ℂ) ≠ 0 := by exact_mod_cast hdt
      push_cast
      field_simp
    rw [this]; ring
  rw [key, ← Complex.ofReal_mul, Complex.ofReal_re]

/-- Three frequencies 0.6 Hz apart and a delay of half a second. -/
example : let tf : List (ℝ × ℂ) := [(-0.6, 1 * Complex.exp (-(2 * Real.pi * (-0.6) * 0.5 : ℝ) * Complex.I)), (0, 1 * Complex.exp (-(2 * Real.pi * 0 * 0.5 : ℝ) * Complex.I)),
      (0.6, 1 * Complex.exp (-(2 * Real.pi * 0.6 * 0.5 : ℝ) * Complex.I))]
    (tf.map Prod.fst).Nodup ∧ ∀ a ∈ tf, ∀ b ∈ tf, a.1 < b.1 → (∀ p ∈ tf, ¬ (a.1 < p.1 ∧ p.1 < b.1)) → (b.1 - a.1) * |(0.5 : ℝ)| < 1 / 2 := by
  refine ⟨by norm_num, ?_⟩
  intro a ha b hb hab hno
  have h0 := hno _ (List.mem_cons_of_mem _ List.mem_cons_self)
  simp only [List.mem_cons, List.not_mem_nil, or_false] at ha hb
  rw [abs_of_pos (by norm_num)]
  rcases ha with rfl | rfl | rfl <;> rcases hb with rfl | rfl | rfl <;> (try norm_num at hab) <;> (try norm_num at h0) <;> norm_num

/-! ## C253 -/

/-- C253: interpolating a filter to other frequencies that include those of the data does not change what it does. -/
theorem C253_resampled (dt : ℝ) (hdt : dt ≠ 0) (x out : List ℝ) (filt : List (ℝ × ℂ)) (h : applyFilter dt x filt = .ok out) (fs : List ℝ) (hnd : fs.Nodup)
    (hf : ∀ f ∈ fftfreq x.length dt, f ∈ fs) (vals : List ℂ) (hi : interpTf fs filt = .ok vals) : applyFilter dt x (fs.zip vals) = .ok out := by
  obtain ⟨hx, H, hH, rfl⟩ := applyFilter_inv h
  have hvl := interpTf_length hi
  have hfst : (fs.zip vals).map Prod.fst = fs := List.map_fst_zip (by omega)
  have hd' : ((fs.zip vals).map Prod.fst).Nodup := by rw [hfst]; exact hnd
  have hl' : 2 ≤ (fs.zip vals).length := by
    rw [List.length_zip, hvl, min_self]
    exact FilterSeries.table_two hdt hx hf
  have hmem : ∀ k, k < x.length → ∃ z, at0 H k = z ∧ ((binNumber x.length k : ℝ) / (x.length * dt), z) ∈ fs.zip vals := by
    intro k hk
    refine ⟨_, rfl, ?_⟩
    have hg := fftfreq_get (dt := dt) hk
    have hm := hf _ (List.mem_of_getElem? hg)
    obtain ⟨i, hi', hfi⟩ := List.mem_iff_getElem.1 hm
    unfold interpTf at hi hH
    simp only at hi hH
    have h1 := List.forall₂_iff_get.1 (mapM_forall₂ hi)
    have h2 := List.forall₂_iff_get.1 (mapM_forall₂ hH)
    have hlen : (fftfreq x.length dt).length = x.length := by simp [fftfreq]
    have hHl : H.length = x.length := by rw [← h2.1, hlen]
    have e1 := h1.2 i hi' (by omega)
    have e2 := h2.2 k (by omega) (by omega)
    simp only [List.get_eq_getElem] at e1 e2
    have hfk : (fftfreq x.length dt)[k]'(by omega) = (binNumber x.length k : ℝ) / (x.length * dt) := by
      rw [List.getElem?_eq_getElem (by omega)] at hg
      exact Option.some.inj hg
    rw [hfi] at e1
    rw [hfk, e1] at e2
    have hz := Except.ok.inj e2
    rw [at0_of_lt (by omega), ← hz, List.mem_iff_getElem]
    exact ⟨i, by rw [List.length_zip]; omega, by rw [List.getElem_zip, hfi]⟩
  have hr : ∀ f ∈ fftfreq x.length dt, (∃ p ∈ fs.zip vals, p.1 ≤ f) ∧ (∃ p ∈ fs.zip vals, f ≤ p.1) := by
    intro f hfm
    unfold fftfreq at hfm
    obtain ⟨k, hk, rfl⟩ := List.mem_map.1 hfm
    obtain ⟨z, -, hz⟩ := hmem k (List.mem_range.1 hk)
    exact ⟨⟨_, hz, le_refl _⟩, ⟨_, hz, le_refl _⟩⟩
  obtain ⟨K, hK⟩ := (Props.Tf.C53_range _ hd' hl' _).2 hr
  rw [applyFilter_core hx (not_above hr) hK]
  congr 1
  apply List.map_congr_left
  intro m _
  unfold outC
  congr 2
  apply Finset.sum_congr rfl
  intro k hk
  obtain ⟨z, hz, hm⟩ := hmem k (Finset.mem_range.1 hk)
  rw [node_value hd' hl' hK (fftfreq_get (Finset.mem_range.1 hk)) hm, hz]

/-- A filter given at two frequencies, resampled at the three frequencies of the data. -/
example : ∃ out vals, applyFilter 1 [1, 2, 3] [((-1 : ℝ), (2 : ℂ)), (1, 2)] = .ok out ∧ interpTf (fftfreq 3 1) [((-1 : ℝ), (2 : ℂ)), (1, 2)] = .ok vals ∧
    (fftfreq 3 1).Nodup := by
  have h3 : ∀ f ∈ fftfreq 3 1, -1 ≤ f ∧ f ≤ 1 := by
    intro f hf
    unfold fftfreq at hf
    simp [List.range_succ, binNumber] at hf
    rcases hf with rfl | rfl | rfl <;> norm_num
  have hr : ∀ f ∈ fftfreq 3 1, (∃ p ∈ [((-1 : ℝ), (2 : ℂ)), (1, 2)], p.1 ≤ f) ∧ (∃ p ∈ [((-1 : ℝ), (2 : ℂ)), (1, 2)], f ≤ p.1) := by
    intro f hf
    exact ⟨⟨_, List.mem_cons_self, (h3 f hf).1⟩, ⟨(1, 2), by simp, (h3 f hf).2⟩⟩
  obtain ⟨vals, hv⟩ := (Props.Tf.C53_range [((-1 : ℝ), (2 : ℂ)), (1, 2)] (by norm_num) (by simp) _).2 hr
  have hu := C51_unity 1 [1, 2, 3] (by simp) [((-1 : ℝ), ((2 : ℝ) : ℂ)), (1, ((2 : ℝ) : ℂ))] (by norm_num) (by simp) 2 (by norm_num) (by simp) (by
    intro f hf
    exact ⟨⟨_, List.mem_cons_self, (h3 f hf).1⟩, ⟨(1, ((2 : ℝ) : ℂ)), by simp, (h3 f hf).2⟩⟩)
  exact ⟨_, vals, by simpa using hu, hv, FilterSeries.freq_nodup (by norm_num)⟩

end SST.Props.InterpPhase
