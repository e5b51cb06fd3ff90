import Verif.Proofs.CorrPair
import Verif.Model.CmvXcorr
import Verif.Spec.CmvGeom

/-! # Delays of exchanged or reversed series -/

namespace SST.Cmv
open SST SST.Spec SST.Corr

theorem ext_reverse (x : List ℝ) (i : ℤ) : ext x.reverse i = ext x (x.length - 1 - i) := by
  unfold ext
  by_cases h : 0 ≤ i ∧ i.toNat < x.length
  · rw [dif_pos (by simpa using h), dif_pos (by omega), List.getElem_reverse]
    congr 1
    omega
  · rw [dif_neg (by simpa using h), dif_neg (by omega)]

theorem xcorrAt_reverse (x y : List ℝ) (hl : x.length = y.length) (lag : ℤ) : xcorrAt x.reverse y.reverse lag = xcorrAt x y (-lag) := by
  rw [xcorrAt_finsum, xcorrAt_finsum]
  rw [← finsum_comp_equiv (Equiv.subLeft ((x.length : ℤ) - 1)) (f := fun i : ℤ => ext x (i + -lag) * ext y i)]
  congr 1
  funext i
  rw [ext_reverse, ext_reverse, ← hl]
  simp only [Equiv.subLeft_apply]
  congr 2
  ring

theorem lagsOf_reverse (n : ℕ) : (lagsOf n n).reverse = (lagsOf n n).map fun l => -l := by
  apply List.ext_getElem
  · simp
  · intro k h1 h2
    simp only [List.length_reverse, lagsOf_length, List.length_map] at h1 h2
    rw [List.getElem_reverse]
    simp only [lagsOf, List.getElem_map, List.getElem_range, List.length_map, List.length_range]
    omega

/-- Opposite lags: the correlation list is reversed. -/
theorem correlate_mirror {x y x' y' : List ℝ} (hl : x.length = y.length) (hx : x'.length = x.length) (hy : y'.length = y.length)
    (h : ∀ lag, xcorrAt x' y' lag = xcorrAt x y (-lag)) : correlate x' y' = (correlate x y).reverse := by
  rw [correlate_eq, correlate_eq, ← List.map_reverse, hx, hy, ← hl, lagsOf_reverse, List.map_map]
  apply List.map_congr_left
  intro l _
  exact h l

theorem mean_reverse (l : List ℝ) : mean l.reverse = mean l := by
  unfold mean
  rw [List.sum_reverse, List.length_reverse]

theorem std_reverse (l : List ℝ) : std l.reverse = std l := by
  unfold std variance
  rw [mean_reverse, List.map_reverse, mean_reverse]

theorem center_reverse (l : List ℝ) : center l.reverse = (center l).reverse := by
  unfold center
  rw [mean_reverse, List.map_reverse]

theorem center_eq_demean (l : List ℝ) : center l = demean l := rfl

theorem argmax_reverse {c : List ℝ} {k : ℕ} (hk : k < c.length) (h : ∀ j (hj : j < c.length), j ≠ k → c[j] < c[k]) :
    argmax c = k ∧ argmax c.reverse = c.length - 1 - k := by
  refine ⟨argmax_unique hk h, argmax_unique (by simp; omega) ?_⟩
  intro j hj hne
  rw [List.length_reverse] at hj
  rw [List.getElem_reverse, List.getElem_reverse]
  have e : c.length - 1 - (c.length - 1 - k) = k := by omega
  simp only [e]
  exact h _ (by omega) (by omega)

/-- Delay negated, peak and mean kept. -/
def negDelay (r : Option ℝ × Option ℝ × Option ℝ) : Option ℝ × Option ℝ × Option ℝ := (r.1.map fun t => -t, r.2)

theorem xcorrDelays_eq (nanD : List (Option ℝ) → List (Option ℝ) → Option ℝ) (dt : ℝ) (a b : List (Option ℝ)) (ha : none ∉ a) (hb : none ∉ b) :
    xcorrDelays nanD dt a b =
      (some (dropWeak (loopPair dt "coeff" (a.filterMap id) (b.filterMap id))).delay,
        finiteOf (loopPair dt "coeff" (a.filterMap id) (b.filterMap id)).peak,
        finiteOf (loopPair dt "coeff" (a.filterMap id) (b.filterMap id)).meanCorr) := by
  unfold xcorrDelays
  rw [if_neg (by tauto)]
  have : computeDelays dt [a.filterMap id] [b.filterMap id] "loop" "coeff" = .ok [dropWeak (loopPair dt "coeff" (a.filterMap id) (b.filterMap id))] := by
    rw [computeDelays_equal (ins := [a.filterMap id]) (outs := [b.filterMap id]) rfl (.inl rfl) (.inl rfl)]
    simp [pairOf]
  rw [this]
  simp only
  unfold dropWeak
  split_ifs <;> rfl

theorem loop_mirror (dt : ℝ) {x y x' y' : List ℝ} (hl : x.length = y.length) (hx : x'.length = x.length)
    (hc : correlate (center x') (center y') = (correlate (center x) (center y)).reverse) (hd : divisor "coeff" x' y' = divisor "coeff" x y)
    (hu : UniquePeak x y) :
    (loopPair dt "coeff" x' y').delay = -(loopPair dt "coeff" x y).delay ∧ (loopPair dt "coeff" x' y').peak = (loopPair dt "coeff" x y).peak ∧
    (loopPair dt "coeff" x' y').meanCorr = (loopPair dt "coeff" x y).meanCorr := by
  obtain ⟨lag, ⟨hl1, hl2⟩, hmax⟩ := hu
  have hn : 0 < x.length := by omega
  set c := correlate (center x) (center y) with hcdef
  have hclen : c.length = 2 * x.length - 1 := by rw [hcdef, correlate_length, center_length, center_length, ← hl]; omega
  have hget : ∀ j (hj : j < c.length), c[j] = xcorrAt (demean x) (demean y) ((j : ℤ) - (x.length - 1)) := by
    intro j hj
    have := correlate_get (x := center x) (y := center y) (k := j) (by rw [center_length, center_length, ← hl]; omega)
    rw [← hcdef, List.getElem?_eq_getElem hj, center_length, ← hl] at this
    exact Option.some.inj this
  obtain ⟨k, hk⟩ : ∃ k : ℕ, (k : ℤ) - (x.length - 1) = lag := ⟨(lag + (x.length - 1)).toNat, by omega⟩
  have hkl : k < c.length := by omega
  obtain ⟨a1, a2⟩ := argmax_reverse hkl fun j hj hne => by
    rw [hget j hj, hget k hkl, hk]
    exact hmax _ ⟨by omega, by omega⟩ (by omega)
  have hcond : ∀ z, cond "coeff" z = center z := fun z => if_pos rfl
  have hrevk : c.reverse[c.length - 1 - k]? = c[k]? := by
    rw [List.getElem?_reverse (by omega)]
    congr 1
    omega
  unfold loopPair
  simp only [hcond, hc, ← hcdef, hd, a1, a2, hx, mean_reverse, hrevk, and_self, and_true]
  have e1 : (lagsOf x.length x.length)[k]? = some ((k : ℤ) - (x.length - 1)) := lagsOf_get (by omega)
  have e2 : (lagsOf x.length x.length)[c.length - 1 - k]? = some (((c.length - 1 - k : ℕ) : ℤ) - (x.length - 1)) := lagsOf_get (by omega)
  rw [List.getElem?_map, List.getElem?_map, e1, e2]
  simp only [Option.map_some, Option.getD_some]
  have : (((c.length - 1 - k : ℕ) : ℤ) - (x.length - 1)) = -((k : ℤ) - (x.length - 1)) := by omega
  rw [this]
  push_cast
  ring

theorem loop_const (dt : ℝ) {x y : List ℝ} (h : IsConst x ∨ IsConst y) :
    correlate (center x) (center y) = List.replicate (x.length + y.length - 1) 0 ∧ divisor "coeff" x y = 0 := by
  constructor
  · rw [correlate_eq, List.eq_replicate_iff]
    refine ⟨by simp, ?_⟩
    intro v hv
    obtain ⟨lag, -, rfl⟩ := List.mem_map.1 hv
    unfold xcorrAt
    apply Finset.sum_eq_zero
    intro i _
    rcases h with h | h
    · rw [ext_zero (center_const h), zero_mul]
    · rw [ext_zero (center_const h), mul_zero]
  · unfold divisor
    rw [if_pos rfl]
    rcases h with h | h <;> rw [std_zero h] <;> ring

theorem clearPeak_self (x : List ℝ) : ClearPeak x x := by
  by_cases h : IsConst x
  · exact .inl h
  · have hne : x ≠ [] := by rintro rfl; exact h (by intro a ha; simp at ha)
    have hn : 0 < x.length := List.length_pos_iff.2 hne
    refine .inr (.inr ⟨0, ⟨by omega, by omega⟩, fun l _ hl => ?_⟩)
    rw [xcorrAt_zero_self]
    refine autocorr_lt ?_ hl
    by_contra hz
    push Not at hz
    apply h
    have he : energyOf (center x) = 0 := by
      unfold energyOf
      apply List.sum_eq_zero
      intro v hv
      obtain ⟨w, hw, rfl⟩ := List.mem_map.1 hv
      rw [hz w hw]; ring
    rw [energy_center] at he
    exact (variance_zero_iff x).1 ((mul_eq_zero.1 he).resolve_left (by exact_mod_cast hn.ne'))

theorem length_valid (s : List (Option ℝ)) (hs : none ∉ s) : (s.filterMap id).length = s.length := by
  have : ∀ o ∈ s, ∃ v, o = some v := fun o ho => Option.ne_none_iff_exists'.1 fun e => hs (e ▸ ho)
  clear hs
  induction s with
  | nil => rfl
  | cons o s ih =>
    obtain ⟨v, rfl⟩ := this o List.mem_cons_self
    rw [List.filterMap_cons_some (f := id) (a := some v) (b := v) rfl, List.length_cons, ih fun o ho => this o (List.mem_cons_of_mem _ ho), List.length_cons]

/-- What mirrored correlations do to the result for a pair. -/
theorem delays_mirror (nanD : List (Option ℝ) → List (Option ℝ) → Option ℝ) (dt : ℝ) {a b a' b' : List (Option ℝ)} (ha : none ∉ a) (hb : none ∉ b)
    (ha' : none ∉ a') (hb' : none ∉ b') (hl : a.length = b.length) (hx : a'.length = a.length) (hy : b'.length = b.length)
    (hcorr : correlate (center (a'.filterMap id)) (center (b'.filterMap id)) = (correlate (center (a.filterMap id)) (center (b.filterMap id))).reverse)
    (hd : divisor "coeff" (a'.filterMap id) (b'.filterMap id) = divisor "coeff" (a.filterMap id) (b.filterMap id))
    (hp : ClearPeak (a.filterMap id) (b.filterMap id)) :
    ((xcorrDelays nanD dt a b).2.1 ≠ none → xcorrDelays nanD dt a' b' = negDelay (xcorrDelays nanD dt a b)) ∧
    ((xcorrDelays nanD dt a b).2.1 = none → xcorrDelays nanD dt a' b' = xcorrDelays nanD dt a b ∨ xcorrDelays nanD dt a' b' = negDelay (xcorrDelays nanD dt a b)) := by
  rw [xcorrDelays_eq nanD dt a b ha hb, xcorrDelays_eq nanD dt a' b' ha' hb']
  have hl1 : (a.filterMap id).length = (b.filterMap id).length := by rw [length_valid a ha, length_valid b hb, hl]
  have hl2 : (a'.filterMap id).length = (a.filterMap id).length := by rw [length_valid a ha, length_valid a' ha', hx]
  have hl3 : (b'.filterMap id).length = (b.filterMap id).length := by rw [length_valid b hb, length_valid b' hb', hy]
  generalize a.filterMap id = u at *
  generalize b.filterMap id = v at *
  generalize a'.filterMap id = u' at *
  generalize b'.filterMap id = v' at *
  by_cases hconst : IsConst u ∨ IsConst v
  · -- all correlations NaN
    obtain ⟨c1, c2⟩ := loop_const dt hconst
    have c3 : correlate (center u') (center v') = correlate (center u) (center v) := by
      rw [hcorr, c1, List.reverse_replicate]
    have : loopPair dt "coeff" u' v' = loopPair dt "coeff" u v := by
      unfold loopPair
      have hcond : ∀ z, cond "coeff" z = center z := fun z => if_pos rfl
      simp only [hcond, c3, hd, hl2]
    rw [this]
    have hn : finiteOf (loopPair dt "coeff" u v).peak = none := by
      unfold loopPair
      have hcond : ∀ z, cond "coeff" z = center z := fun z => if_pos rfl
      simp only [hcond, c1, c2]
      have : (List.replicate (u.length + v.length - 1) (0 : ℝ))[argmax (List.replicate (u.length + v.length - 1) (0 : ℝ))]?.getD 0 = 0 := by
        cases h : (List.replicate (u.length + v.length - 1) (0 : ℝ))[argmax (List.replicate (u.length + v.length - 1) (0 : ℝ))]? with
        | none => rfl
        | some w => exact (List.eq_of_mem_replicate (List.mem_of_getElem? h))
      rw [this]
      simp [XR.div, finiteOf]
    exact ⟨fun h => absurd hn h, fun _ => .inl rfl⟩
  · have hu : UniquePeak u v := by
      rcases hp with h | h | h
      · exact absurd (.inl h) hconst
      · exact absurd (.inr h) hconst
      · exact h
    obtain ⟨t1, t2, t3⟩ := loop_mirror dt hl1 hl2 hcorr hd hu
    have key : (dropWeak (loopPair dt "coeff" u' v')).delay = -(dropWeak (loopPair dt "coeff" u v)).delay := by
      unfold dropWeak
      rw [t2]
      split_ifs
      · simp
      · exact t1
    have : (some (dropWeak (loopPair dt "coeff" u' v')).delay, finiteOf (loopPair dt "coeff" u' v').peak, finiteOf (loopPair dt "coeff" u' v').meanCorr) =
        negDelay (some (dropWeak (loopPair dt "coeff" u v)).delay, finiteOf (loopPair dt "coeff" u v).peak, finiteOf (loopPair dt "coeff" u v).meanCorr) := by
      unfold negDelay
      simp only [key, t2, t3, Option.map_some]
    rw [this]
    exact ⟨fun _ => rfl, fun _ => .inr rfl⟩

theorem delays_swap (nanD : List (Option ℝ) → List (Option ℝ) → Option ℝ) (dt : ℝ) {a b : List (Option ℝ)} (ha : none ∉ a) (hb : none ∉ b)
    (hl : a.length = b.length) (hp : ClearPeak (a.filterMap id) (b.filterMap id)) :
    ((xcorrDelays nanD dt a b).2.1 ≠ none → xcorrDelays nanD dt b a = negDelay (xcorrDelays nanD dt a b)) ∧
    ((xcorrDelays nanD dt a b).2.1 = none → xcorrDelays nanD dt b a = xcorrDelays nanD dt a b ∨ xcorrDelays nanD dt b a = negDelay (xcorrDelays nanD dt a b)) := by
  have hl1 : (a.filterMap id).length = (b.filterMap id).length := by rw [length_valid a ha, length_valid b hb, hl]
  refine delays_mirror nanD dt ha hb hb ha hl hl.symm hl (correlate_mirror (by simpa using hl1) (by simpa using hl1.symm) (by simpa using hl1) fun lag => ?_) ?_ hp
  · rw [← xcorrAt_swap]
  · unfold divisor
    rw [if_pos rfl, if_pos rfl, hl1]
    ring

theorem delays_reverse (nanD : List (Option ℝ) → List (Option ℝ) → Option ℝ) (dt : ℝ) {a b : List (Option ℝ)} (ha : none ∉ a) (hb : none ∉ b)
    (hl : a.length = b.length) (hp : ClearPeak (a.filterMap id) (b.filterMap id)) :
    ((xcorrDelays nanD dt a b).2.1 ≠ none → xcorrDelays nanD dt a.reverse b.reverse = negDelay (xcorrDelays nanD dt a b)) ∧
    ((xcorrDelays nanD dt a b).2.1 = none → xcorrDelays nanD dt a.reverse b.reverse = xcorrDelays nanD dt a b ∨
      xcorrDelays nanD dt a.reverse b.reverse = negDelay (xcorrDelays nanD dt a b)) := by
  have hl1 : (a.filterMap id).length = (b.filterMap id).length := by rw [length_valid a ha, length_valid b hb, hl]
  refine delays_mirror nanD dt ha hb (by simpa using ha) (by simpa using hb) hl (by simp) (by simp) ?_ ?_ hp
  · rw [List.filterMap_reverse, List.filterMap_reverse, center_reverse, center_reverse]
    exact correlate_mirror (by simpa using hl1) (by simp) (by simp) fun lag => xcorrAt_reverse _ _ (by simpa using hl1) lag
  · rw [List.filterMap_reverse, List.filterMap_reverse]
    unfold divisor
    rw [if_pos rfl, if_pos rfl, List.length_reverse, std_reverse, std_reverse]

/-- Another unit of time. -/
theorem delays_unit (nanD : List (Option ℝ) → List (Option ℝ) → Option ℝ) (dt c : ℝ) (a b : List (Option ℝ)) :
    xcorrDelays (fun a b => (nanD a b).map fun t => c * t) (c * dt) a b =
      ((xcorrDelays nanD dt a b).1.map (fun t => c * t), (xcorrDelays nanD dt a b).2) := by
  by_cases h : none ∈ a ∨ none ∈ b
  · unfold xcorrDelays
    rw [if_pos h, if_pos h]
  · push Not at h
    rw [xcorrDelays_eq _ _ _ _ h.1 h.2, xcorrDelays_eq _ _ _ _ h.1 h.2]
    have key : (loopPair (c * dt) "coeff" (a.filterMap id) (b.filterMap id)).delay = c * (loopPair dt "coeff" (a.filterMap id) (b.filterMap id)).delay := by
      unfold loopPair
      simp only [List.getElem?_map]
      cases (lagsOf (a.filterMap id).length (a.filterMap id).length)[argmax (correlate (cond "coeff" (a.filterMap id)) (cond "coeff" (b.filterMap id)))]? with
      | none => simp
      | some l => simp; ring
    have key2 : (dropWeak (loopPair (c * dt) "coeff" (a.filterMap id) (b.filterMap id))).delay = c * (dropWeak (loopPair dt "coeff" (a.filterMap id) (b.filterMap id))).delay := by
      unfold dropWeak
      have : (loopPair (c * dt) "coeff" (a.filterMap id) (b.filterMap id)).peak = (loopPair dt "coeff" (a.filterMap id) (b.filterMap id)).peak := rfl
      rw [this]
      split_ifs
      · simp
      · exact key
    simp only [key2, Option.map_some]
    rfl

end SST.Cmv
