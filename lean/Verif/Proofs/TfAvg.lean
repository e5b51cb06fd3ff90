import Verif.Proofs.TfDelay

/-! # Helper lemmas: `averaged_tf`, circular shifts, Parseval -/

namespace SST.Tf
open SST SST.Dft SST.Corr

theorem spectrum_segSpec (w : List ℝ) (d : Detrend) (x : List ℝ) (L s k : ℕ) :
    spectrum w d (segment x L s) k = segSpec w d x L s k := rfl

/-- Successful calls of `averaged_tf` share segment length and overlap. -/
theorem averagedTf_ok {o : Opts} {ins outs : List (String × List ℝ)} {cols : List (String × List Row)}
    (h : averagedTf o ins outs = .ok cols) :
    ∃ ps, pairCols ins outs = .ok ps ∧ 0 < o.navgs ∧
      let L := (ins.headD ("", [])).2.length / o.navgs
      let ov := pyInt (L * o.overlap)
      0 < L ∧ ov < L ∧ cols = ps.map fun p => (p.1, pairTf o L ov.toNat p.2.1 p.2.2) := by
  unfold averagedTf at h
  cases hp : pairCols ins outs with
  | error e => rw [hp] at h; cases h
  | ok ps =>
    rw [hp] at h
    simp only at h
    split_ifs at h with h1 h2
    push Not at h2
    simp only [Except.ok.injEq] at h
    refine ⟨ps, rfl, by omega, Nat.pos_of_ne_zero h2.1, h2.2, h.symm⟩

theorem averagedTf_pair (o : Opts) (a b : String) (x y : List ℝ) {cols : List (String × List Row)}
    (h : averagedTf o [(a, x)] [(b, y)] = .ok cols) :
    0 < o.navgs ∧ 0 < x.length / o.navgs ∧ pyInt ((x.length / o.navgs : ℕ) * o.overlap) < (x.length / o.navgs : ℕ) ∧
      cols = [(a ++ "_" ++ b, pairTf o (x.length / o.navgs) (pyInt ((x.length / o.navgs : ℕ) * o.overlap)).toNat x y)] := by
  obtain ⟨ps, hps, h1, h2, h3, h4⟩ := averagedTf_ok h
  simp [pairCols] at hps
  subst hps
  refine ⟨h1, h2, h3, h4⟩

theorem pairCols_mem {α : Type} {ins outs : List (String × α)} {ps : List (String × α × α)} (h : pairCols ins outs = .ok ps) :
    ∀ p ∈ ps, ∃ a ∈ ins, ∃ b ∈ outs, p = (a.1 ++ "_" ++ b.1, a.2, b.2) := by
  unfold pairCols at h
  split_ifs at h with h1 h2 h3 <;> simp only [Except.ok.injEq] at h <;> subst h
  · intro p hp
    rw [List.mem_iff_getElem] at hp
    obtain ⟨i, hi, rfl⟩ := hp
    rw [List.length_zipWith] at hi
    refine ⟨ins[i]'(by omega), List.getElem_mem _, outs[i]'(by omega), List.getElem_mem _, by rw [List.getElem_zipWith]⟩
  all_goals
    intro p hp
    rw [List.mem_flatMap] at hp
    obtain ⟨a, ha, hp⟩ := hp
    obtain ⟨b, hb, rfl⟩ := List.mem_map.1 hp
    exact ⟨a, ha, b, hb, rfl⟩

theorem pairTf_get (o : Opts) (L ov : ℕ) (x y : List ℝ) {k : ℕ} (hk : k < L / 2 + 1) :
    (pairTf o L ov x y)[k]? = some ⟨k / (L * o.dt),
      tfBin (psdScale (o.win L) o.dt L k) (spectra (o.win L) o.detr L ov x k) (spectra (o.win L) o.detr L ov y k),
      cohBin (psdScale (o.win L) o.dt L k) (spectra (o.win L) o.detr L ov x k) (spectra (o.win L) o.detr L ov y k)⟩ := by
  simp [pairTf, hk]

theorem pairTf_length (o : Opts) (L ov : ℕ) (x y : List ℝ) : (pairTf o L ov x y).length = L / 2 + 1 := by simp [pairTf]

theorem pairTf_mem {o : Opts} {L ov : ℕ} {x y : List ℝ} {r : Row} (h : r ∈ pairTf o L ov x y) :
    ∃ k, k < L / 2 + 1 ∧ r = ⟨k / (L * o.dt),
      tfBin (psdScale (o.win L) o.dt L k) (spectra (o.win L) o.detr L ov x k) (spectra (o.win L) o.detr L ov y k),
      cohBin (psdScale (o.win L) o.dt L k) (spectra (o.win L) o.detr L ov x k) (spectra (o.win L) o.detr L ov y k)⟩ := by
  unfold pairTf at h
  obtain ⟨k, hk, rfl⟩ := List.mem_map.1 h
  exact ⟨k, List.mem_range.1 hk, rfl⟩

theorem pairTf_getElem {o : Opts} {L ov : ℕ} {x y : List ℝ} {r : Row} {k : ℕ} (h : (pairTf o L ov x y)[k]? = some r) :
    k < L / 2 + 1 ∧ r = ⟨k / (L * o.dt),
      tfBin (psdScale (o.win L) o.dt L k) (spectra (o.win L) o.detr L ov x k) (spectra (o.win L) o.detr L ov y k),
      cohBin (psdScale (o.win L) o.dt L k) (spectra (o.win L) o.detr L ov x k) (spectra (o.win L) o.detr L ov y k)⟩ := by
  obtain ⟨hk, h2⟩ := List.getElem?_eq_some_iff.1 h
  rw [pairTf_length] at hk
  rw [pairTf_get o L ov x y hk] at h
  exact ⟨hk, (Option.some.inj h).symm⟩

/-- Spectra of outputs that are a multiple of the input in each segment. -/
theorem spectra_multiple {w : List ℝ} {d : Detrend} {L ov : ℕ} {x y : List ℝ} (hl : x.length = y.length) {k : ℕ} {z : ℂ}
    (h : ∀ s, segSpec w d y L s k = z * segSpec w d x L s k) :
    spectra w d L ov y k = (spectra w d L ov x k).map fun v => z * v := by
  unfold spectra
  rw [List.map_map, hl]
  apply List.map_congr_left
  intro s _
  simp only [Function.comp, spectrum_segSpec, h s]

theorem pairTf_sorted (o : Opts) (hdt : 0 < o.dt) {L : ℕ} (hL : 0 < L) (ov : ℕ) (x y : List ℝ) :
    (pairTf o L ov x y).Pairwise fun a b => a.f < b.f := by
  unfold pairTf
  rw [List.pairwise_map]
  apply List.Pairwise.imp _ List.pairwise_lt_range
  intro a b hab
  have hd : 0 < (L : ℝ) * o.dt := by positivity
  have : (a : ℝ) < b := by exact_mod_cast hab
  exact div_lt_div_of_pos_right this hd

theorem pairTf_chain (o : Opts) {L : ℕ} (ov : ℕ) (x y : List ℝ) (R : Row → Row → Prop)
    (h : ∀ (k : ℕ) (a b : Row), a.f = k / (L * o.dt) → b.f = (k + 1) / (L * o.dt) → R a b) : (pairTf o L ov x y).IsChain R := by
  unfold pairTf
  rw [List.isChain_map]
  apply List.IsChain.imp _ (List.isChain_range_succ (fun a b : ℕ => b = a + 1) (L / 2) |>.2 (fun _ _ => rfl))
  intro a b hab
  subst hab
  exact h a _ _ rfl (by push_cast; rfl)

/-! ## Circular shifts -/

theorem segStarts_one {n ov : ℕ} (h : ov < n) : segStarts n n ov = [0] := by
  unfold segStarts
  rw [Nat.div_self (by omega)]; simp

theorem at0_roll (x : List ℝ) (m : ℤ) {j : ℕ} (hj : j < x.length) : at0 (roll x m) j = at0 x (((j : ℤ) - m) % x.length).toNat := by
  unfold at0; rw [roll_get x m hj]

/-- Shift theorem: the transform of a circularly shifted record. -/
theorem dft_roll (x : List ℝ) (m : ℤ) (k : ℕ) (hn : 0 < x.length) :
    ∑ j ∈ Finset.range x.length, ((at0 (roll x m) j : ℝ) : ℂ) * twiddle x.length (j * k) =
      twiddle x.length (m * k) * ∑ j ∈ Finset.range x.length, ((at0 x j : ℝ) : ℂ) * twiddle x.length (j * k) := by
  have hn' : (0 : ℤ) < x.length := by exact_mod_cast hn
  rw [Finset.mul_sum]
  refine Finset.sum_bij' (fun j _ => (((j : ℤ) - m) % x.length).toNat) (fun j _ => (((j : ℤ) + m) % x.length).toNat) ?_ ?_ ?_ ?_ ?_
  · intro j hj
    have := Int.emod_lt_of_pos ((j : ℤ) - m) hn'
    have h2 := Int.emod_nonneg ((j : ℤ) - m) hn'.ne'
    rw [Finset.mem_range]; omega
  · intro j hj
    have := Int.emod_lt_of_pos ((j : ℤ) + m) hn'
    have h2 := Int.emod_nonneg ((j : ℤ) + m) hn'.ne'
    rw [Finset.mem_range]; omega
  · intro j hj
    rw [Finset.mem_range] at hj
    have h2 := Int.emod_nonneg ((j : ℤ) - m) hn'.ne'
    rw [Int.toNat_of_nonneg h2, Int.emod_add_emod, Int.sub_add_cancel]
    rw [Int.emod_eq_of_lt (by omega) (by omega)]; simp
  · intro j hj
    rw [Finset.mem_range] at hj
    have h2 := Int.emod_nonneg ((j : ℤ) + m) hn'.ne'
    rw [Int.toNat_of_nonneg h2, Int.emod_sub_emod, Int.add_sub_cancel]
    rw [Int.emod_eq_of_lt (by omega) (by omega)]; simp
  · intro j hj
    rw [Finset.mem_range] at hj
    rw [at0_roll x m hj]
    have h2 := Int.emod_nonneg ((j : ℤ) - m) hn'.ne'
    have : twiddle x.length (j * k) = twiddle x.length (m * k) * twiddle x.length (((((j : ℤ) - m) % x.length).toNat : ℕ) * k) := by
      rw [← twiddle_add]
      apply twiddle_period _ hn
      rw [Int.toNat_of_nonneg h2]
      have e : ((j : ℤ) - m) % x.length = ((j : ℤ) - m) - x.length * (((j : ℤ) - m) / x.length) := by
        rw [Int.emod_def]
      rw [e]
      refine ⟨(((j : ℤ) - m) / x.length) * k, by ring⟩
    rw [this]; ring

end SST.Tf
