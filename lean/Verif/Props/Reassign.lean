import Verif.Proofs.Reassign
import Verif.Props.Assign
import Verif.Props.Predict
import Verif.Props.Field

/-!
# Properties C165-C168: the reassignment procedure of the demonstrations, from delays to the corrected plant table

Specifications: `Spec/Reassign.lean`, `Spec/Assign.lean`, `Spec/Remap.lean`.
-/

namespace SST.Props.Reassign
open SST SST.Field SST.Spec SST.Spatial

/-! ## C168 -/

section
variable {ι κ : Type} [LinearOrder ι] [DecidableEq κ]

private theorem perm_of_iff {r t : List (ι × ι)} {idx : List ι} (hn : idx.Nodup) (hr : IsBijection r idx) (ht : IsBijection t idx)
    (h : ∀ p, p ∈ r ↔ p ∈ t) : r.Perm t :=
  (List.perm_ext_iff_of_nodup (List.Nodup.of_map Prod.fst (hr.1.nodup_iff.2 hn)) (List.Nodup.of_map Prod.fst (ht.1.nodup_iff.2 hn))).2 h

/-- C168: if every prediction is nearer to the entity's true location than to any other location of the table, and predictions are
missing only for entities that are where the table says, the result is exactly the true assignment. -/
theorem C168_nearest (lsa : LSA) (hl : IsLSA lsa) (nan : ℝ) (original : Frame ι κ ℝ)
    (hn : original.index.Nodup) (c0 c1 : κ) (rest : List κ) (hcols : original.cols = c0 :: c1 :: rest)
    (pred : List (ι × PredRow)) (hlab : pred.map Prod.fst = original.index)
    (truth : List (ι × ι)) (ht : IsBijection truth original.index)
    (hnan : ∀ p ∈ pred, p.2.hasNaN = true → (p.1, p.1) ∈ truth)
    (hnear : ∀ p ∈ pred, p.2.hasNaN = false → ∀ t, (p.1, t) ∈ truth → ∀ k ∈ original.index, k ≠ t →
      pdist (posOf (predCoords pred) p.1) (posOf (coords c0 c1 original) t) <
      pdist (posOf (predCoords pred) p.1) (posOf (coords c0 c1 original) k)) :
    ∃ remap out, assignPositions lsa nan original pred = .ok (remap, out) ∧ remap.Perm truth ∧
      remapPositions nan original remap none = .ok out := by
  by_cases hN : ∃ p ∈ pred, p.2.hasNaN = true
  · obtain ⟨remap, out, h1, h2, h3, h4, ⟨h5, h6⟩, h7⟩ :=
      Assign.C19_nan_fixed lsa hl nan original hn c0 c1 rest hcols pred (by rw [hlab]) hN
    refine ⟨remap, out, h1, perm_of_iff hn h3 ht ?_, h7⟩
    set known := (pred.filter fun r => !r.2.hasNaN).map Prod.fst with hknown
    have hmem : ∀ k, k ∈ known → ∃ p ∈ pred, p.1 = k ∧ p.2.hasNaN = false := by
      intro k hk
      obtain ⟨p, hp, rfl⟩ := List.mem_map.1 hk
      obtain ⟨hp, hp'⟩ := List.mem_filter.1 hp
      exact ⟨p, hp, rfl, by simpa using hp'⟩
    have hno : ∀ k ∈ original.index, k ∉ known → ∃ p ∈ pred, p.1 = k ∧ p.2.hasNaN = true := by
      intro k hk hk'
      rw [← hlab] at hk
      obtain ⟨p, hp, rfl⟩ := List.mem_map.1 hk
      refine ⟨p, hp, rfl, ?_⟩
      by_contra hc
      exact hk' (List.mem_map.2 ⟨p, List.mem_filter.2 ⟨hp, by simpa using hc⟩, rfl⟩)
    have hks : ∀ k ∈ known, k ∈ original.index := by
      intro k hk
      obtain ⟨p, hp, rfl, -⟩ := hmem k hk
      rw [← hlab]; exact List.mem_map_of_mem hp
    have hkn : known.Nodup := (List.filter_sublist.map _).nodup (hlab ▸ hn)
    have ht1 : (truth.map Prod.fst).Nodup := ht.1.nodup_iff.2 hn
    have hr1 : (remap.map Prod.fst).Nodup := h3.1.nodup_iff.2 hn
    have hself : ∀ p ∈ truth, p.1 ∉ known → p.2 = p.1 := by
      intro p hp hpk
      obtain ⟨q, hq, hqp, hqN⟩ := hno p.1 (ht.1.mem_iff.1 (List.mem_map_of_mem hp)) hpk
      have := hnan q hq hqN
      rw [hqp] at this
      exact congrArg Prod.snd (List.inj_on_of_nodup_map ht1 hp this rfl)
    have hbt := bij_filter hn hkn hks ht hself
    have key := nearest_unique (d := fun i k => pdist (posOf (predCoords pred) i) (posOf (coords c0 c1 original) k)) hkn hbt h5
      (by
        intro p hp k hk hne
        obtain ⟨hp, hpk⟩ := List.mem_filter.1 hp
        obtain ⟨q, hq, hqp, hqN⟩ := hmem p.1 (by simpa using hpk)
        have := hnear q hq hqN p.2 (by rw [hqp]; exact hp) k (hks k hk) hne
        rwa [hqp] at this)
      (h6 _ hbt)
    intro p
    by_cases hpk : p.1 ∈ known
    · have := key p
      simpa [List.mem_filter, hpk] using this
    · constructor
      · intro hp
        obtain ⟨q, hq, hqp, hqN⟩ := hno p.1 (h3.1.mem_iff.1 (List.mem_map_of_mem hp)) hpk
        have h := h4 q hq hqN
        have h' := hnan q hq hqN
        rw [hqp] at h h'
        rwa [List.inj_on_of_nodup_map hr1 hp h rfl]
      · intro hp
        obtain ⟨q, hq, hqp, hqN⟩ := hno p.1 (ht.1.mem_iff.1 (List.mem_map_of_mem hp)) hpk
        have h := h4 q hq hqN
        have h' := hnan q hq hqN
        rw [hqp] at h h'
        rwa [List.inj_on_of_nodup_map ht1 hp h' rfl]
  · have hN' : ∀ p ∈ pred, p.2.hasNaN = false := by
      intro p hp
      by_contra hc
      exact hN ⟨p, hp, by simpa using hc⟩
    obtain ⟨remap, out, h1, h2, h3, h4, h5⟩ :=
      Assign.C18_optimal_bijection lsa hl nan original hn c0 c1 rest hcols pred hlab hN'
    refine ⟨remap, out, h1, perm_of_iff hn h2 ht ?_, h5⟩
    refine nearest_unique (d := fun i k => pdist (posOf (predCoords pred) i) (posOf (coords c0 c1 original) k)) hn ht h2 ?_ (h4 truth ht)
    intro p hp k hk hne
    have hpi := ht.1.mem_iff.1 (List.mem_map_of_mem hp)
    rw [← hlab] at hpi
    obtain ⟨q, hq, hqp⟩ := List.mem_map.1 hpi
    have := hnear q hq (hN' q hq) p.2 (by rw [hqp]; exact hp) k hk hne
    rwa [hqp] at this

/-- Predictions half a metre and one metre off still give the right assignment; the third entity has no prediction. -/
example : let orig : List (ℕ × Vec) := [(1, (0, 0)), (2, (4, 0)), (3, (9, 9))]
    let pred : List (ℕ × PredRow) := [(1, ⟨some 3, some 0, []⟩), (2, ⟨some 0.5, some 0, []⟩), (3, ⟨none, none, []⟩)]
    let truth := [(1, 2), (2, 1), (3, 3)]
    (∀ p ∈ pred, p.2.hasNaN = true → (p.1, p.1) ∈ truth) ∧
    pdist (posOf (predCoords pred) 1) (posOf orig 2) < pdist (posOf (predCoords pred) 1) (posOf orig 1) ∧
    pdist (posOf (predCoords pred) 2) (posOf orig 1) < pdist (posOf (predCoords pred) 2) (posOf orig 2) := by
  intro orig pred truth
  refine ⟨?_, ?_, ?_⟩
  · intro p hp
    simp only [pred, List.mem_cons, List.not_mem_nil, or_false] at hp
    rcases hp with rfl | rfl | rfl <;> simp [PredRow.hasNaN, truth]
  · simp only [posOf, predCoords, pred, orig, pdist]
    apply Real.sqrt_lt_sqrt <;> norm_num
  · simp only [posOf, predCoords, pred, orig, pdist]
    apply Real.sqrt_lt_sqrt <;> norm_num

end

/-! ## C166 -/

section
variable {ι : Type} [DecidableEq ι]

/-- C166: the sites used for the prediction (the rows of the two returned tables) push the prediction off the true place of the
reference by exactly their own mean displacement, taken along each of the two cloud motions; it is NaN if no site is used or if the
apparent displacement along one of the motions is zero. -/
theorem C166_contamination {sort : SortValues ι} (hs : IsSortValues sort) (pts : List (ι × Vec)) (hn : (pts.map Prod.fst).Nodup)
    (P : ι → Vec) (ref : ι) (href : ref ∈ pts.map Prod.fst) (mode : String)
    (hm : mode ∈ ["coherence", "preavg", "global_coherence", "distance", "all"]) (n : ℤ) (V1 V2 : Vec)
    (hX : V1.1 * V2.2 - V1.2 * V2.1 ≠ 0) (c1 c2 : CloudCase) (h1 : ExactCase (pts.map Prod.fst) P V1 ref c1)
    (h2 : ExactCase (pts.map Prod.fst) P V2 ref c2) :
    ∃ pos s1 s2, predictedPosition sort pts false ref mode n c1 c2 = .ok (pos, s1, s2) ∧
      (mode ∉ ["coherence", "preavg"] → s1.map Prod.fst = s2.map Prod.fst) ∧ (mode = "all" → s1.map Prod.fst = pts.map Prod.fst) ∧
      (∀ l ∈ s1.map Prod.fst, l ∈ pts.map Prod.fst) ∧ (∀ l ∈ s2.map Prod.fst, l ∈ pts.map Prod.fst) ∧
      let m1 := meanDisp P (posOf pts) (s1.map Prod.fst)
      let m2 := meanDisp P (posOf pts) (s2.map Prod.fst)
      let seen1 := along (P ref - posOf pts ref - m1) V1
      let seen2 := along (P ref - posOf pts ref - m2) V2
      (s1 ≠ [] → s2 ≠ [] → seen1 ≠ 0 → seen2 ≠ 0 → ∃ x : Vec, pos = (.fin x.1, .fin x.2) ∧
        along (x - P ref) V1 = - along m1 V1 ∧ along (x - P ref) V2 = - along m2 V2) ∧
      (s1 = [] ∨ s2 = [] ∨ seen1 = 0 ∨ seen2 = 0 → pos = (.nan, .nan)) := by
  obtain ⟨hV1, hV2⟩ := Predict.ne_of_cross hX
  have g1 := magnitude_pos hV1
  have g2 := magnitude_pos hV2
  obtain ⟨γ1, rfl⟩ := exactCase_eq hn h1
  obtain ⟨γ2, rfl⟩ := exactCase_eq hn h2
  obtain ⟨q, hq, rfl⟩ := List.mem_map.1 href
  have hpr : posOf pts q.1 = q.2 := posOf_mem hn hq
  obtain ⟨ix1, ix2, e1, e2, e3, e4, e5⟩ := downselect_ok hs mode hm n pts q.2
    (fun l => siteRow q.2 V1 (some (planeDelay (P l) (P q.1) V1)) (γ1 l) (posOf pts l))
    (fun l => siteRow q.2 V2 (some (planeDelay (P l) (P q.1) V2)) (γ2 l) (posOf pts l))
  have hev := predict_eval sort pts hn false q.1 q.2 hq mode n V1 V2 hV1 hV2
    (fun l => some (planeDelay (P l) (P q.1) V1)) γ1 (fun l => some (planeDelay (P l) (P q.1) V2)) γ2 ix1 ix2 e1 e2 e3
  refine ⟨_, _, _, hev, ?_, ?_, ?_, ?_, ?_⟩
  · intro h; simp [Function.comp_def, e4 h]
  · intro h; simp [Function.comp_def, e5 h]
  · intro l h; exact e2 l (by simpa [Function.comp_def] using h)
  · intro l h; exact e3 l (by simpa [Function.comp_def] using h)
  intro m1 m2 seen1 seen2
  have hf : ∀ (ix : List ι) (F : ι → PosRow), (ix.map fun l => (l, F l)).map Prod.fst = ix := by
    intro ix F; simp [Function.comp_def]
  have hm1 : m1 = meanDisp P (posOf pts) ix1 := by simp only [m1, hf]
  have hm2 : m2 = meanDisp P (posOf pts) ix2 := by simp only [m2, hf]
  have em : ∀ (V : Vec) (γ : ι → Option ℝ) (ix : List ι), V ≠ 0 → ix ≠ [] →
      meanO (ix.filterMap fun l => (siteRow q.2 V (some (planeDelay (P l) (P q.1) V)) (γ l) (posOf pts l)).errorDist) =
      some (along (P q.1 - posOf pts q.1 - meanDisp P (posOf pts) ix) V / magnitude V) := by
    intro V γ ix hV hne
    rw [disp_mean P (posOf pts) q.2 V (P q.1) hV γ ix hne, hpr]
  constructor
  · intro hs1 hs2 hn1 hn2
    have hi1 : ix1 ≠ [] := by rintro rfl; exact hs1 rfl
    have hi2 : ix2 ≠ [] := by rintro rfl; exact hs2 rfl
    rw [em V1 γ1 ix1 hV1 hi1, em V2 γ2 ix2 hV2 hi2, ← hm1, ← hm2]
    set D := V1.1 * V2.2 - V1.2 * V2.1 with hD
    set w : Vec := ((seen1 * V2.2 - seen2 * V1.2) / D, (seen2 * V1.1 - seen1 * V2.1) / D) with hw
    have w1 : w.1 * V1.1 + w.2 * V1.2 = seen1 := by
      simp only [hw]; field_simp; rw [hD]; ring
    have w2 : w.1 * V2.1 + w.2 * V2.2 = seen2 := by
      simp only [hw]; field_simp; rw [hD]; ring
    have hp := position_solves V1 V2 w (if false = true then (q.2.2, q.2.1) else q.2) hX (seen1 / magnitude V1) (seen2 / magnitude V2)
      (by rw [div_mul_cancel₀ _ g1.ne', w1]) (by rw [div_mul_cancel₀ _ g2.ne', w2]) (div_ne_zero hn1 g1.ne') (div_ne_zero hn2 g2.ne')
    refine ⟨w + q.2, by simpa using hp, ?_, ?_⟩
    · have : seen1 = along (P q.1 - q.2 - m1) V1 := by simp only [seen1, hpr]
      rw [this] at w1
      simp only [along, Prod.fst_sub, Prod.snd_sub, Prod.fst_add, Prod.snd_add] at w1 ⊢
      linear_combination w1
    · have : seen2 = along (P q.1 - q.2 - m2) V2 := by simp only [seen2, hpr]
      rw [this] at w2
      simp only [along, Prod.fst_sub, Prod.snd_sub, Prod.fst_add, Prod.snd_add] at w2 ⊢
      linear_combination w2
  · intro h
    by_cases hi1 : ix1 = []
    · subst hi1
      simp [meanO, positionFrom]
    by_cases hi2 : ix2 = []
    · subst hi2
      rw [em V1 γ1 ix1 hV1 hi1]
      simp [meanO, positionFrom]
    rw [em V1 γ1 ix1 hV1 hi1, em V2 γ2 ix2 hV2 hi2, ← hm1, ← hm2]
    apply position_zero
    rcases h with h | h | h | h
    · exact absurd (by simpa using h) hi1
    · exact absurd (by simpa using h) hi2
    · left; rw [show along (P q.1 - posOf pts q.1 - m1) V1 = 0 from h, zero_div]
    · right; rw [show along (P q.1 - posOf pts q.1 - m2) V2 = 0 from h, zero_div]

/-- C166: when the same sites are used for both motions (modes 'global_coherence', 'distance' and 'all'), the prediction is the true
place minus the mean displacement of the sites used. -/
theorem C166_same_sites {sort : SortValues ι} (hs : IsSortValues sort) (pts : List (ι × Vec)) (hn : (pts.map Prod.fst).Nodup)
    (P : ι → Vec) (ref : ι) (href : ref ∈ pts.map Prod.fst) (mode : String)
    (hm : mode ∈ ["global_coherence", "distance", "all"]) (n : ℤ) (V1 V2 : Vec)
    (hX : V1.1 * V2.2 - V1.2 * V2.1 ≠ 0) (c1 c2 : CloudCase) (h1 : ExactCase (pts.map Prod.fst) P V1 ref c1)
    (h2 : ExactCase (pts.map Prod.fst) P V2 ref c2) :
    ∃ pos s1 s2, predictedPosition sort pts false ref mode n c1 c2 = .ok (pos, s1, s2) ∧
      s1.map Prod.fst = s2.map Prod.fst ∧
      let m := meanDisp P (posOf pts) (s1.map Prod.fst)
      (s1 ≠ [] → along (P ref - posOf pts ref - m) V1 ≠ 0 → along (P ref - posOf pts ref - m) V2 ≠ 0 →
        pos = (.fin (P ref - m).1, .fin (P ref - m).2)) := by
  have hm' : mode ∈ ["coherence", "preavg", "global_coherence", "distance", "all"] := by
    simp only [List.mem_cons, List.not_mem_nil, or_false] at hm ⊢; tauto
  have hm'' : mode ∉ ["coherence", "preavg"] := by
    simp only [List.mem_cons, List.not_mem_nil, or_false] at hm ⊢
    rcases hm with rfl | rfl | rfl <;> decide
  obtain ⟨pos, s1, s2, e1, e2, -, -, -, e4, -⟩ := C166_contamination hs pts hn P ref href mode hm' n V1 V2 hX c1 c2 h1 h2
  have hss := e2 hm''
  refine ⟨pos, s1, s2, e1, hss, ?_⟩
  intro m hne ha hb
  rw [← hss] at e4
  obtain ⟨x, hx, x1, x2⟩ := e4 hne (by rintro rfl; simp at hss; exact hne hss) ha hb
  have hxx : x = P ref - m := by
    simp only [along, Prod.fst_sub, Prod.snd_sub] at x1 x2
    have y1 : ((x.1 - (P ref).1) + m.1) * (V1.1 * V2.2 - V1.2 * V2.1) = 0 := by
      linear_combination V2.2 * x1 - V1.2 * x2
    have y2 : ((x.2 - (P ref).2) + m.2) * (V1.1 * V2.2 - V1.2 * V2.1) = 0 := by
      linear_combination V1.1 * x2 - V2.1 * x1
    apply Prod.ext
    · have := (mul_eq_zero.1 y1).resolve_right hX
      simp only [Prod.fst_sub]; linarith
    · have := (mul_eq_zero.1 y2).resolve_right hX
      simp only [Prod.snd_sub]; linarith
  rw [hx, hxx]

end

/-! ## The rounds -/

section
variable {ι : Type} [LinearOrder ι]

theorem tablePts_fst (f : Frame ι String ℝ) : (tablePts f).map Prod.fst = f.index := by
  simp [tablePts, Frame.index, Function.comp_def]

private theorem mapM_ok_of {α β : Type} {g : α → Except PyErr β} {h : α → β} {l : List α} (hg : ∀ a ∈ l, g a = .ok (h a)) :
    l.mapM g = .ok (l.map h) := by
  induction l with
  | nil => rfl
  | cons a l ih =>
    rw [List.mapM_cons, hg a List.mem_cons_self, ih (fun b hb => hg b (List.mem_cons_of_mem _ hb))]
    rfl

private theorem posOf_table {f : Frame ι String ℝ} {l : ι} {r : String → ℝ} (hr : f.row? l = some r) (hn : f.index.Nodup) :
    posOf (tablePts f) l = (r "E", r "N") := by
  have : (l, r) ∈ f.rows := dictGet?_mem hr
  exact posOf_mem (by rw [tablePts_fst]; exact hn) (p := (l, (r "E", r "N"))) (List.mem_map.2 ⟨_, this, rfl⟩)

private theorem locFrame_ok (f : Frame ι String ℝ) (hn : f.index.Nodup) (refs : List ι) (hr : ∀ l ∈ refs, l ∈ f.index) (hrn : refs.Nodup) :
    ∃ sub, locFrame f refs = .ok sub ∧ sub.cols = f.cols ∧ sub.index = refs ∧
      ∀ l ∈ refs, posOf (coords "E" "N" sub) l = posOf (tablePts f) l := by
  let row : ι → (String → ℝ) := fun l => (f.row? l).getD fun _ => 0
  have hrow : ∀ l ∈ refs, f.row? l = some (row l) := by
    intro l hl
    obtain ⟨r, hr'⟩ := Frame.row?_isSome (hr l hl)
    simp [row, hr']
  have hm : refs.mapM (locRef f) = .ok (refs.map fun l => (l, row l)) := by
    apply mapM_ok_of
    intro l hl
    simp only [locRef, hrow l hl]
  refine ⟨⟨f.cols, refs.map fun l => (l, row l)⟩, ?_, rfl, ?_, ?_⟩
  · unfold locFrame
    rw [hm]; rfl
  · simp [Frame.index, Function.comp_def]
  · intro l hl
    rw [posOf_table (hrow l hl) hn]
    have hco : coords "E" "N" (⟨f.cols, refs.map fun l => (l, row l)⟩ : Frame ι String ℝ) =
        refs.map fun l => (l, (row l "E", row l "N")) := by
      simp [coords, Function.comp_def]
    rw [hco]
    exact posOf_mem (by simpa [Function.comp_def] using hrn) (p := (l, (row l "E", row l "N"))) (List.mem_map.2 ⟨l, hl, rfl⟩)

/-- A round in which every prediction is NaN for an entity that stays, and nearest to the true location otherwise. -/
theorem round_ok (lsa : LSA) (hl : IsLSA lsa) (nan : ℝ) (sort : SortValues ι) (mode : String) (n : ℤ)
    (data : ι → CloudCase × CloudCase) (refs : List ι) (f : Frame ι String ℝ) (hn : f.index.Nodup) (hcols : f.cols = ["E", "N"])
    (hr : ∀ l ∈ refs, l ∈ f.index) (hrn : refs.Nodup) (pos : ι → XR × XR)
    (hpred : ∀ l ∈ refs, ∃ full, predictedPosition sort (tablePts f) false l mode n (data l).1 (data l).2 = .ok (pos l, full))
    (truth : List (ι × ι)) (ht : IsBijection truth refs)
    (hcase : ∀ p ∈ truth, (pos p.1 = (.nan, .nan) ∧ p.2 = p.1) ∨
      ∃ x : Vec, pos p.1 = (.fin x.1, .fin x.2) ∧ ∀ k ∈ refs, k ≠ p.2 →
        pdist x (posOf (tablePts f) p.2) < pdist x (posOf (tablePts f) k)) :
    ∃ r, reassignRound lsa nan sort mode n data refs f = .ok r ∧ r.Perm truth ∧
      ((∃ l ∈ refs, pos l = (.nan, .nan)) → r.map Prod.fst = refs) := by
  have hpr : predictRefs sort mode n data f refs = .ok (refs.map fun l => (l, storeRow (pos l))) := by
    apply mapM_ok_of
    intro l hl'
    obtain ⟨full, hf⟩ := hpred l hl'
    rw [hf]; rfl
  obtain ⟨sub, s1, s2, s3, s4⟩ := locFrame_ok f hn refs hr hrn
  have hpc : ∀ l ∈ refs, posOf (predCoords (refs.map fun l => (l, storeRow (pos l)))) l =
      ((storeCoord (pos l).1).getD 0, (storeCoord (pos l).2).getD 0) := by
    intro l hl'
    have e : predCoords (refs.map fun l => (l, storeRow (pos l))) =
        refs.map fun l => (l, ((storeCoord (pos l).1).getD 0, (storeCoord (pos l).2).getD 0)) := by
      simp [predCoords, storeRow, Function.comp_def]
    rw [e]
    exact posOf_mem (by simpa [Function.comp_def] using hrn)
      (p := (l, ((storeCoord (pos l).1).getD 0, (storeCoord (pos l).2).getD 0))) (List.mem_map.2 ⟨l, hl', rfl⟩)
  have ht1 : (truth.map Prod.fst).Nodup := ht.1.nodup_iff.2 hrn
  have hget : ∀ l ∈ refs, ∃ p ∈ truth, p.1 = l := fun l hl' => List.mem_map.1 (ht.1.mem_iff.2 hl')
  obtain ⟨remap, out, a1, a2, -⟩ := C168_nearest lsa hl nan sub (by rw [s3]; exact hrn) "E" "N" [] (by rw [s2, hcols])
    (refs.map fun l => (l, storeRow (pos l))) (by rw [s3]; simp [Function.comp_def]) truth (by rw [s3]; exact ht)
    (by
      intro q hq hN
      obtain ⟨l, hl', rfl⟩ := List.mem_map.1 hq
      obtain ⟨p, hp, hpl⟩ := hget l hl'
      rcases hcase p hp with ⟨-, h2⟩ | ⟨x, h2, -⟩
      · simp only
        rw [← hpl]
        convert hp using 1
        exact Prod.ext rfl h2.symm
      · rw [hpl] at h2
        simp [storeRow, h2, storeCoord, PredRow.hasNaN] at hN)
    (by
      intro q hq hN t htt k hk hne
      obtain ⟨l, hl', rfl⟩ := List.mem_map.1 hq
      simp only at htt ⊢
      rcases hcase (l, t) htt with ⟨h2, -⟩ | ⟨x, h2, h3⟩
      · simp [storeRow, h2, storeCoord, PredRow.hasNaN] at hN
      · have htr : t ∈ refs := ht.2.mem_iff.1 (List.mem_map.2 ⟨_, htt, rfl⟩)
        rw [s3] at hk
        have := h3 k hk hne
        simp only at h2 this
        rw [hpc l hl', h2, s4 t htr, s4 k hk]
        simpa [storeCoord] using this)
  refine ⟨remap, ?_, a2, ?_⟩
  swap
  · rintro ⟨l, hl', hnan⟩
    obtain ⟨remap', out', b1, b2, -⟩ := Assign.C19_nan_fixed lsa hl nan sub (by rw [s3]; exact hrn) "E" "N" [] (by rw [s2, hcols])
      (refs.map fun l => (l, storeRow (pos l))) (by rw [s3]; simp [Function.comp_def])
      ⟨(l, storeRow (pos l)), List.mem_map.2 ⟨l, hl', rfl⟩, by simp [hnan, storeRow, storeCoord, PredRow.hasNaN]⟩
    rw [a1] at b1
    obtain ⟨rfl, -⟩ := (by simpa using b1 : remap = remap' ∧ out = out')
    rw [b2, s3]
  unfold reassignRound
  rw [hpr]
  show (locFrame f refs >>= _) = _
  rw [s1]
  show Except.map _ (assignPositions lsa nan sub _) = _
  rw [a1]; rfl

theorem bij_self (refs : List ι) : IsBijection (refs.map fun l => (l, l)) refs := by
  constructor <;> simp [Function.comp_def]

/-- With a correct table every prediction is NaN. -/
private theorem round_correct (lsa : LSA) (hl : IsLSA lsa) (nan : ℝ) {sort : SortValues ι} (hs : IsSortValues sort) (mode : String)
    (hm : mode ∈ ["coherence", "preavg", "global_coherence", "distance", "all"]) (n : ℤ)
    (data : ι → CloudCase × CloudCase) (refs : List ι) (f : Frame ι String ℝ) (hn : f.index.Nodup) (hcols : f.cols = ["E", "N"])
    (hr : ∀ l ∈ refs, l ∈ f.index) (hrn : refs.Nodup) (P : ι → Vec) (hP : ∀ l ∈ f.index, P l = posOf (tablePts f) l) (V1 V2 : Vec)
    (hX : V1.1 * V2.2 - V1.2 * V2.1 ≠ 0)
    (hd : ∀ l ∈ refs, ExactCase f.index P V1 l (data l).1 ∧ ExactCase f.index P V2 l (data l).2) :
    ∃ r, reassignRound lsa nan sort mode n data refs f = .ok r ∧ r.Perm (refs.map fun l => (l, l)) ∧ r.map Prod.fst = refs := by
  suffices h : ∃ r, reassignRound lsa nan sort mode n data refs f = .ok r ∧ r.Perm (refs.map fun l => (l, l)) ∧
      ((∃ l ∈ refs, ((.nan, .nan) : XR × XR) = (.nan, .nan)) → r.map Prod.fst = refs) by
    obtain ⟨r, h1, h2, h3⟩ := h
    refine ⟨r, h1, h2, ?_⟩
    by_cases hne : refs = []
    · subst hne
      have : r = [] := by simpa using h2
      rw [this]; rfl
    · obtain ⟨l, hl'⟩ := List.exists_mem_of_ne_nil refs hne
      exact h3 ⟨l, hl', rfl⟩
  refine round_ok lsa hl nan sort mode n data refs f hn hcols hr hrn (fun _ => (.nan, .nan)) ?_ _ (bij_self refs) ?_
  · intro l hl'
    obtain ⟨d1, d2⟩ := hd l hl'
    rw [← tablePts_fst] at d1 d2
    obtain ⟨pos, s1, s2, e1, -, -, e3, -, -, e5⟩ := C166_contamination hs (tablePts f) (by rw [tablePts_fst]; exact hn) P l
      (by rw [tablePts_fst]; exact hr l hl') mode hm n V1 V2 hX _ _ d1 d2
    refine ⟨(s1, s2), ?_⟩
    rw [e1, e5 ?_]
    -- the sites used are rows of the table, so their displacements are zero
    by_cases h1 : s1 = []
    · exact Or.inl h1
    · right; right; left
      have hz : meanDisp P (posOf (tablePts f)) (s1.map Prod.fst) = 0 := by
        have z1 : ((s1.map Prod.fst).map fun l => (P l).1 - (posOf (tablePts f) l).1).sum = 0 := by
          apply List.sum_eq_zero
          intro x hx
          obtain ⟨k, hk, rfl⟩ := List.mem_map.1 hx
          rw [hP k (by rw [← tablePts_fst]; exact e3 k hk), sub_self]
        have z2 : ((s1.map Prod.fst).map fun l => (P l).2 - (posOf (tablePts f) l).2).sum = 0 := by
          apply List.sum_eq_zero
          intro x hx
          obtain ⟨k, hk, rfl⟩ := List.mem_map.1 hx
          rw [hP k (by rw [← tablePts_fst]; exact e3 k hk), sub_self]
        unfold meanDisp
        rw [z1, z2, zero_div]; rfl
      rw [hz, hP l (hr l hl')]
      simp [along]
  · intro p hp
    obtain ⟨l, -, rfl⟩ := List.mem_map.1 hp
    exact Or.inl ⟨rfl, rfl⟩

/-- The table after a remap with the pairs of `truth`. -/
theorem remapped (nan : ℝ) (f : Frame ι String ℝ) (hn : f.index.Nodup) (hcols : f.cols = ["E", "N"]) (refs : List ι)
    (truth : List (ι × ι)) (P : ι → Vec) (hmix : MixedUp (tablePts f) refs truth P) (hrn : refs.Nodup) (r : List (ι × ι))
    (hr : r.Perm truth) :
    ∃ f', remapPositions nan f r none = .ok f' ∧ f'.index = f.index ∧ f'.cols = f.cols ∧
      ∀ l ∈ f.index, P l = posOf (tablePts f') l := by
  have hb : IsBijection r refs := ⟨(hr.map _).trans hmix.bij.1, (hr.map _).trans hmix.bij.2⟩
  have hk : ∀ l ∈ refs, l ∈ f.index := by
    intro l hl; rw [← tablePts_fst]; exact hmix.known l hl
  obtain ⟨f', e1, e2, e3, e4⟩ := remap_ok nan f r none (by simp)
    (fun p hp => hk _ (hb.1.mem_iff.1 (List.mem_map_of_mem hp)))
    (fun p hp => hk _ (hb.2.mem_iff.1 (List.mem_map_of_mem hp)))
  refine ⟨f', e1, e2, e3, ?_⟩
  intro l hl
  have hn' : f'.index.Nodup := by rw [e2]; exact hn
  have hrow := e4 l hl
  rw [posOf_table hrow hn']
  simp only [Option.getD_none, hcols]
  by_cases hlr : l ∈ refs
  · obtain ⟨p, hp, rfl⟩ := List.mem_map.1 (hb.1.mem_iff.2 hlr)
    have ht : lastTarget r p.1 = some p.2 := lastTarget_of_mem (hb.1.nodup_iff.2 hrn) hp
    obtain ⟨row, hrow'⟩ := Frame.row?_isSome (hk p.2 (hb.2.mem_iff.1 (List.mem_map_of_mem hp)))
    rw [ht, hmix.moved p (hr.mem_iff.1 hp), posOf_table hrow' hn]
    simp [hrow']
  · have ht : lastTarget r l = none := lastTarget_eq_none.2 (fun h => hlr (hb.1.mem_iff.1 h))
    obtain ⟨row, hrow'⟩ := Frame.row?_isSome hl
    rw [ht, hmix.rest l (by rw [tablePts_fst]; exact hl) hlr, posOf_table hrow' hn]
    simp [hrow']

theorem cascade_self {r s : List (ι × ι)} {refs : List ι} (hrn : refs.Nodup) (hb : IsBijection r refs)
    (hs : s.Perm (refs.map fun l => (l, l))) : ∃ o, cascadeRemap r s = .ok o ∧ o.Perm r := by
  have hr1 : (r.map Prod.fst).Nodup := hb.1.nodup_iff.2 hrn
  have hs1 : (s.map Prod.fst).Nodup := by
    refine ((hs.map Prod.fst).nodup_iff).2 ?_
    simpa [Function.comp_def] using hrn
  have hid : ∀ k ∈ r.map Prod.fst, lastTarget s k = some k := by
    intro k hk
    exact lastTarget_of_mem hs1 (hs.mem_iff.2 (List.mem_map.2 ⟨k, hb.1.mem_iff.1 hk, rfl⟩))
  obtain ⟨o, e1, e2, e3, e4⟩ := cascade_ok r s (fun k hk => ⟨k, hid k hk, hk⟩)
  refine ⟨o, e1, ?_⟩
  have ho1 : (o.map Prod.fst).Nodup := e2.imp ne_of_lt
  rw [List.perm_ext_iff_of_nodup (List.Nodup.of_map Prod.fst ho1) (List.Nodup.of_map Prod.fst hr1)]
  intro p
  constructor
  · intro hp
    have hk := (e3 p.1).1 (List.mem_map_of_mem hp)
    have := e4 p.1 p.1 hk (hid _ hk)
    rw [lastTarget_of_mem ho1 (show (p.1, p.2) ∈ o from hp)] at this
    exact lastTarget_mem this.symm
  · intro hp
    have hk : p.1 ∈ r.map Prod.fst := List.mem_map_of_mem hp
    have := e4 p.1 p.1 hk (hid _ hk)
    rw [lastTarget_of_mem hr1 (show (p.1, p.2) ∈ r from hp)] at this
    exact lastTarget_mem this

/-- All further rounds confirm the first one if it was right. -/
private theorem rounds_stay (lsa : LSA) (hl : IsLSA lsa) (nan : ℝ) {sort : SortValues ι} (hs : IsSortValues sort) (mode : String)
    (hm : mode ∈ ["coherence", "preavg", "global_coherence", "distance", "all"]) (n : ℤ)
    (data : ι → CloudCase × CloudCase) (refs : List ι) (f : Frame ι String ℝ) (hn : f.index.Nodup) (hcols : f.cols = ["E", "N"])
    (hrn : refs.Nodup) (truth : List (ι × ι)) (P : ι → Vec) (hmix : MixedUp (tablePts f) refs truth P) (V1 V2 : Vec)
    (hX : V1.1 * V2.2 - V1.2 * V2.1 ≠ 0)
    (hd : ∀ l ∈ refs, ExactCase f.index P V1 l (data l).1 ∧ ExactCase f.index P V2 l (data l).2)
    (h0 : ∃ r, reassignRound lsa nan sort mode n data refs f = .ok r ∧ r.Perm truth) (k : ℕ) :
    ∃ r, reassign lsa nan sort mode n data refs f k = .ok r ∧ r.Perm truth := by
  induction k with
  | zero => exact h0
  | succ k ih =>
    obtain ⟨r, hr1, hr2⟩ := ih
    obtain ⟨f', e1, e2, e3, e4⟩ := remapped nan f hn hcols refs truth P hmix hrn r hr2
    obtain ⟨s, s1, s2, -⟩ := round_correct lsa hl nan hs mode hm n data refs f' (by rw [e2]; exact hn) (by rw [e3]; exact hcols)
      (by intro l hl'; rw [e2, ← tablePts_fst]; exact hmix.known l hl') hrn P (by rw [e2]; exact e4) V1 V2 hX (by rw [e2]; exact hd)
    have hb : IsBijection r refs := ⟨(hr2.map _).trans hmix.bij.1, (hr2.map _).trans hmix.bij.2⟩
    obtain ⟨o, o1, o2⟩ := cascade_self hrn hb s2
    refine ⟨o, ?_, o2.trans hr2⟩
    unfold reassign
    rw [hr1]
    show (remapPositions nan f r none >>= _) = _
    rw [e1]
    show (reassignRound lsa nan sort mode n data refs f' >>= _) = _
    rw [s1]
    exact o1

/-! ## C167 -/

/-- C167: sensors that are where the table says are left alone, in every mode and however often the procedure is repeated: the remap
pairs every reference with itself, and the remapped table has the positions of the original. -/
theorem C167_correct_layout (lsa : LSA) (hl : IsLSA lsa) (nan : ℝ) {sort : SortValues ι} (hs : IsSortValues sort) (mode : String)
    (hm : mode ∈ ["coherence", "preavg", "global_coherence", "distance", "all"]) (n : ℤ)
    (data : ι → CloudCase × CloudCase) (refs : List ι) (f : Frame ι String ℝ) (hn : f.index.Nodup) (hcols : f.cols = ["E", "N"])
    (hr : ∀ l ∈ refs, l ∈ f.index) (hrn : refs.Nodup) (V1 V2 : Vec) (hX : V1.1 * V2.2 - V1.2 * V2.1 ≠ 0)
    (hd : ∀ l ∈ refs, ExactCase f.index (posOf (coords "E" "N" f)) V1 l (data l).1 ∧
      ExactCase f.index (posOf (coords "E" "N" f)) V2 l (data l).2) (k : ℕ) :
    ∃ r f', reassign lsa nan sort mode n data refs f k = .ok r ∧ r.Perm (refs.map fun l => (l, l)) ∧
      remapPositions nan f r none = .ok f' ∧ f'.index = f.index ∧
      ∀ l ∈ f.index, posOf (coords "E" "N" f') l = posOf (coords "E" "N" f) l := by
  have hmix : MixedUp (tablePts f) refs (refs.map fun l => (l, l)) (posOf (tablePts f)) := by
    refine ⟨by rw [tablePts_fst]; exact hr, bij_self refs, ?_, fun _ _ _ => rfl⟩
    intro p hp
    obtain ⟨l, -, rfl⟩ := List.mem_map.1 hp
    rfl
  have h0 : ∃ r, reassignRound lsa nan sort mode n data refs f = .ok r ∧ r.Perm (refs.map fun l => (l, l)) := by
    obtain ⟨r, h1, h2, -⟩ := round_correct lsa hl nan hs mode hm n data refs f hn hcols hr hrn (posOf (tablePts f)) (fun _ _ => rfl)
      V1 V2 hX hd
    exact ⟨r, h1, h2⟩
  obtain ⟨r, r1, r2⟩ := rounds_stay lsa hl nan hs mode hm n data refs f hn hcols hrn _ _ hmix V1 V2 hX hd h0 k
  obtain ⟨f', e1, e2, -, e4⟩ := remapped nan f hn hcols refs _ _ hmix hrn r r2
  exact ⟨r, f', r1, r2, e1, e2, fun l hl' => (e4 l hl').symm⟩

/-! ## C165 -/

theorem meanDisp_zero (pts : List (ι × Vec)) (hn : (pts.map Prod.fst).Nodup) (refs : List ι) (hrn : refs.Nodup)
    (truth : List (ι × ι)) (P : ι → Vec) (hmix : MixedUp pts refs truth P) : meanDisp P (posOf pts) (pts.map Prod.fst) = 0 := by
  have hsum : ∀ g : Vec → ℝ, ((pts.map Prod.fst).map fun l => g (P l) - g (posOf pts l)).sum = 0 := by
    intro g
    have hperm : (pts.map Prod.fst).Perm (refs ++ (pts.map Prod.fst).filter fun l => l ∉ refs) := by
      rw [List.perm_ext_iff_of_nodup hn]
      · intro a
        simp only [List.mem_append, List.mem_filter, decide_eq_true_eq]
        constructor
        · intro h
          by_cases ha : a ∈ refs
          · exact Or.inl ha
          · exact Or.inr ⟨h, ha⟩
        · rintro (h | h)
          · exact hmix.known a h
          · exact h.1
      · rw [List.nodup_append]
        refine ⟨hrn, hn.filter _, ?_⟩
        intro a ha b hb
        rintro rfl
        have := (List.mem_filter.1 hb).2
        simp [ha] at this
    rw [(hperm.map _).sum_eq, List.map_append, List.sum_append]
    have h2 : (((pts.map Prod.fst).filter fun l => l ∉ refs).map fun l => g (P l) - g (posOf pts l)).sum = 0 := by
      apply List.sum_eq_zero
      intro x hx
      obtain ⟨k, hk, rfl⟩ := List.mem_map.1 hx
      obtain ⟨hk, hk'⟩ := List.mem_filter.1 hk
      rw [hmix.rest k hk (by simpa using hk'), sub_self]
    rw [h2, add_zero]
    have split : ∀ l : List ι, (l.map fun l => g (P l) - g (posOf pts l)).sum =
        (l.map fun l => g (P l)).sum - (l.map fun l => g (posOf pts l)).sum := by
      intro l
      induction l with
      | nil => simp
      | cons a l ih => simp only [List.map_cons, List.sum_cons, ih]; ring
    rw [split]
    have e1 : (refs.map fun l => g (P l)).sum = (truth.map fun p => g (P p.1)).sum := by
      rw [← (hmix.bij.1.map fun l => g (P l)).sum_eq, List.map_map]; rfl
    have e2 : (refs.map fun l => g (posOf pts l)).sum = (truth.map fun p => g (posOf pts p.2)).sum := by
      rw [← (hmix.bij.2.map fun l => g (posOf pts l)).sum_eq, List.map_map]; rfl
    rw [e1, e2, List.map_congr_left (g := fun p => g (posOf pts p.2)) (fun p hp => by rw [hmix.moved p hp]), sub_self]
  unfold meanDisp
  rw [hsum Prod.fst, hsum Prod.snd, zero_div]
  rfl

/-- Predictions of mode 'all' in a mixed-up plant. -/
theorem predict_all {sort : SortValues ι} (hs : IsSortValues sort) (n : ℤ) (pts : List (ι × Vec))
    (hn : (pts.map Prod.fst).Nodup) (refs : List ι) (hrn : refs.Nodup) (truth : List (ι × ι)) (P : ι → Vec)
    (hmix : MixedUp pts refs truth P) (V1 V2 : Vec) (hX : V1.1 * V2.2 - V1.2 * V2.1 ≠ 0) (l : ι) (hl : l ∈ refs) (c1 c2 : CloudCase)
    (h1 : ExactCase (pts.map Prod.fst) P V1 l c1) (h2 : ExactCase (pts.map Prod.fst) P V2 l c2) :
    ∃ pos full, predictedPosition sort pts false l "all" n c1 c2 = .ok (pos, full) ∧
      (along (P l - posOf pts l) V1 ≠ 0 → along (P l - posOf pts l) V2 ≠ 0 → pos = (.fin (P l).1, .fin (P l).2)) ∧
      (along (P l - posOf pts l) V1 = 0 ∨ along (P l - posOf pts l) V2 = 0 → pos = (.nan, .nan)) := by
  have hli := hmix.known l hl
  obtain ⟨pos, s1, s2, e1, e2, e3, -, -, -, e5⟩ := C166_contamination hs pts hn P l hli "all" (by simp) n V1 V2 hX c1 c2 h1 h2
  obtain ⟨pos', s1', s2', f1, f2, f3⟩ := C166_same_sites hs pts hn P l hli "all" (by simp) n V1 V2 hX c1 c2 h1 h2
  rw [e1] at f1
  obtain ⟨rfl, rfl, rfl⟩ := (by simpa using f1 : pos = pos' ∧ s1 = s1' ∧ s2 = s2')
  have e3 := e3 rfl
  have hz := meanDisp_zero pts hn refs hrn truth P hmix
  simp only [← f2, e3, hz, sub_zero] at e5 f3
  refine ⟨pos, _, e1, ?_, ?_⟩
  · intro ha hb
    refine f3 ?_ ha hb
    rintro rfl
    rw [List.map_nil] at e3
    rw [← e3] at hli; simp at hli
  · intro h
    exact e5 (Or.inr (Or.inr h))

/-- If all predictions are exact, or NaN for a displacement without component along one of the motions, the mix-up is found. -/
private theorem found (lsa : LSA) (hl : IsLSA lsa) (nan : ℝ) {sort : SortValues ι} (hs : IsSortValues sort) (mode : String)
    (hm : mode ∈ ["coherence", "preavg", "global_coherence", "distance", "all"]) (n : ℤ)
    (data : ι → CloudCase × CloudCase) (refs : List ι) (f : Frame ι String ℝ) (hn : f.index.Nodup) (hcols : f.cols = ["E", "N"])
    (hrn : refs.Nodup) (hdist : ∀ k ∈ refs, ∀ l ∈ refs, posOf (tablePts f) k = posOf (tablePts f) l → k = l)
    (truth : List (ι × ι)) (P : ι → Vec) (hmix : MixedUp (tablePts f) refs truth P) (V1 V2 : Vec)
    (hX : V1.1 * V2.2 - V1.2 * V2.1 ≠ 0)
    (hd : ∀ l ∈ refs, ExactCase f.index P V1 l (data l).1 ∧ ExactCase f.index P V2 l (data l).2)
    (hobl : ∀ p ∈ truth, p.1 ≠ p.2 → along (P p.1 - posOf (tablePts f) p.1) V1 ≠ 0 ∧
      along (P p.1 - posOf (tablePts f) p.1) V2 ≠ 0)
    (hpred : ∀ l ∈ refs, ∃ pos full, predictedPosition sort (tablePts f) false l mode n (data l).1 (data l).2 = .ok (pos, full) ∧
      (along (P l - posOf (tablePts f) l) V1 ≠ 0 → along (P l - posOf (tablePts f) l) V2 ≠ 0 → pos = (.fin (P l).1, .fin (P l).2)) ∧
      (along (P l - posOf (tablePts f) l) V1 = 0 ∨ along (P l - posOf (tablePts f) l) V2 = 0 → pos = (.nan, .nan))) (k : ℕ) :
    ∃ r f', reassign lsa nan sort mode n data refs f k = .ok r ∧ r.Perm truth ∧
      remapPositions nan f r none = .ok f' ∧ f'.index = f.index ∧ ∀ l ∈ f.index, posOf (tablePts f') l = P l := by
  have hfst := tablePts_fst f
  have hk : ∀ l ∈ refs, l ∈ f.index := by
    intro l hl'; rw [← hfst]; exact hmix.known l hl'
  have hex : ∀ l : ι, ∃ pos : XR × XR, l ∈ refs → ∃ full,
      predictedPosition sort (tablePts f) false l mode n (data l).1 (data l).2 = .ok (pos, full) ∧
      (along (P l - posOf (tablePts f) l) V1 ≠ 0 → along (P l - posOf (tablePts f) l) V2 ≠ 0 → pos = (.fin (P l).1, .fin (P l).2)) ∧
      (along (P l - posOf (tablePts f) l) V1 = 0 ∨ along (P l - posOf (tablePts f) l) V2 = 0 → pos = (.nan, .nan)) := by
    intro l
    by_cases hl' : l ∈ refs
    · obtain ⟨pos, full, h⟩ := hpred l hl'
      exact ⟨pos, fun _ => ⟨full, h⟩⟩
    · exact ⟨(.nan, .nan), fun h => absurd h hl'⟩
  choose pos hpos using hex
  have h0 : ∃ r, reassignRound lsa nan sort mode n data refs f = .ok r ∧ r.Perm truth := by
    suffices h : ∃ r, reassignRound lsa nan sort mode n data refs f = .ok r ∧ r.Perm truth ∧
        ((∃ l ∈ refs, pos l = (.nan, .nan)) → r.map Prod.fst = refs) by
      obtain ⟨r, h1, h2, -⟩ := h
      exact ⟨r, h1, h2⟩
    refine round_ok lsa hl nan sort mode n data refs f hn hcols hk hrn pos ?_ truth hmix.bij ?_
    · intro l hl'
      obtain ⟨full, h, -⟩ := hpos l hl'
      exact ⟨full, h⟩
    · intro p hp
      have hp1 : p.1 ∈ refs := hmix.bij.1.mem_iff.1 (List.mem_map_of_mem hp)
      have hp2 : p.2 ∈ refs := hmix.bij.2.mem_iff.1 (List.mem_map_of_mem hp)
      obtain ⟨full, -, ha, hb⟩ := hpos p.1 hp1
      have hPm := hmix.moved p hp
      by_cases hpp : p.1 = p.2
      · left
        refine ⟨hb (Or.inl ?_), hpp.symm⟩
        rw [hPm, hpp, sub_self]; simp [along]
      · right
        obtain ⟨o1, o2⟩ := hobl p hp hpp
        refine ⟨P p.1, ha o1 o2, ?_⟩
        intro k hk' hne
        rw [hPm]
        have hz : pdist (posOf (tablePts f) p.2) (posOf (tablePts f) p.2) = 0 := by simp [pdist]
        rw [hz]
        refine lt_of_le_of_ne (Field.pdist_nonneg _ _) ?_
        intro h
        exact hne (hdist k hk' p.2 hp2 (pdist_eq_zero h.symm).symm)
  obtain ⟨r, r1, r2⟩ := rounds_stay lsa hl nan hs mode hm n data refs f hn hcols hrn truth P hmix V1 V2 hX hd h0 k
  obtain ⟨f', e1, e2, -, e4⟩ := remapped nan f hn hcols refs truth P hmix hrn r r2
  exact ⟨r, f', r1, r2, e1, e2, fun l hl' => (e4 l hl').symm⟩

/-- C165 (partial): some sensors of a plant are mixed up among themselves, the delays are exact, mode 'all'.  If the displacement of
every misplaced sensor has a component along both cloud motions, the first round finds the mix-up completely, every further round
confirms it, and the remapped table has all sensors at their true places.  Missing: misplaced sensors whose displacement is
perpendicular to one of the motions (`C165_violated_left_in_place`). -/
theorem C165_found_partial (lsa : LSA) (hl : IsLSA lsa) (nan : ℝ) {sort : SortValues ι} (hs : IsSortValues sort) (n : ℤ)
    (data : ι → CloudCase × CloudCase) (refs : List ι) (f : Frame ι String ℝ) (hn : f.index.Nodup) (hcols : f.cols = ["E", "N"])
    (hrn : refs.Nodup) (hdist : ∀ k ∈ refs, ∀ l ∈ refs, posOf (coords "E" "N" f) k = posOf (coords "E" "N" f) l → k = l)
    (truth : List (ι × ι)) (P : ι → Vec) (hmix : MixedUp (coords "E" "N" f) refs truth P) (V1 V2 : Vec)
    (hX : V1.1 * V2.2 - V1.2 * V2.1 ≠ 0)
    (hd : ∀ l ∈ refs, ExactCase f.index P V1 l (data l).1 ∧ ExactCase f.index P V2 l (data l).2)
    (hobl : ∀ p ∈ truth, p.1 ≠ p.2 → along (P p.1 - posOf (coords "E" "N" f) p.1) V1 ≠ 0 ∧
      along (P p.1 - posOf (coords "E" "N" f) p.1) V2 ≠ 0) (k : ℕ) :
    ∃ r f', reassign lsa nan sort "all" n data refs f k = .ok r ∧ r.Perm truth ∧
      remapPositions nan f r none = .ok f' ∧ f'.index = f.index ∧ ∀ l ∈ f.index, posOf (coords "E" "N" f') l = P l := by
  have hfst := tablePts_fst f
  refine found lsa hl nan hs "all" (by simp) n data refs f hn hcols hrn hdist truth P hmix V1 V2 hX hd hobl ?_ k
  intro l hl'
  exact predict_all hs n (tablePts f) (by rw [hfst]; exact hn) refs hrn truth P hmix V1 V2 hX l hl' (data l).1 (data l).2
    (by rw [hfst]; exact (hd l hl').1) (by rw [hfst]; exact (hd l hl').2)

/-- C165 (partial), the other modes (in particular the default): the mix-up is found as well if the sites used for each prediction are
themselves where the table says.  Missing: as in `C165_found_partial`, and misplaced sites among those used (`C166_contamination`
says by how much they spoil the prediction). -/
theorem C165_found_clean_sites_partial (lsa : LSA) (hl : IsLSA lsa) (nan : ℝ) {sort : SortValues ι} (hs : IsSortValues sort)
    (mode : String) (hm : mode ∈ ["coherence", "preavg", "global_coherence", "distance", "all"]) (n : ℤ)
    (data : ι → CloudCase × CloudCase) (refs : List ι) (f : Frame ι String ℝ) (hn : f.index.Nodup) (hcols : f.cols = ["E", "N"])
    (hrn : refs.Nodup) (hdist : ∀ k ∈ refs, ∀ l ∈ refs, posOf (coords "E" "N" f) k = posOf (coords "E" "N" f) l → k = l)
    (truth : List (ι × ι)) (P : ι → Vec) (hmix : MixedUp (coords "E" "N" f) refs truth P) (V1 V2 : Vec)
    (hX : V1.1 * V2.2 - V1.2 * V2.1 ≠ 0)
    (hd : ∀ l ∈ refs, ExactCase f.index P V1 l (data l).1 ∧ ExactCase f.index P V2 l (data l).2)
    (hobl : ∀ p ∈ truth, p.1 ≠ p.2 → along (P p.1 - posOf (coords "E" "N" f) p.1) V1 ≠ 0 ∧
      along (P p.1 - posOf (coords "E" "N" f) p.1) V2 ≠ 0)
    (hclean : ∀ l ∈ refs, ∀ pos s1 s2,
      predictedPosition sort (coords "E" "N" f) false l mode n (data l).1 (data l).2 = .ok (pos, s1, s2) →
      s1 ≠ [] ∧ s2 ≠ [] ∧ (∀ x ∈ s1.map Prod.fst, P x = posOf (coords "E" "N" f) x) ∧
        ∀ x ∈ s2.map Prod.fst, P x = posOf (coords "E" "N" f) x) (k : ℕ) :
    ∃ r f', reassign lsa nan sort mode n data refs f k = .ok r ∧ r.Perm truth ∧
      remapPositions nan f r none = .ok f' ∧ f'.index = f.index ∧ ∀ l ∈ f.index, posOf (coords "E" "N" f') l = P l := by
  have hfst := tablePts_fst f
  have hz : ∀ S : List ι, (∀ x ∈ S, P x = posOf (tablePts f) x) → meanDisp P (posOf (tablePts f)) S = 0 := by
    intro S hS
    have z : ∀ g : Vec → ℝ, (S.map fun l => g (P l) - g (posOf (tablePts f) l)).sum = 0 := by
      intro g
      apply List.sum_eq_zero
      intro x hx
      obtain ⟨k, hk, rfl⟩ := List.mem_map.1 hx
      rw [hS k hk, sub_self]
    unfold meanDisp
    rw [z Prod.fst, z Prod.snd, zero_div]; rfl
  refine found lsa hl nan hs mode hm n data refs f hn hcols hrn hdist truth P hmix V1 V2 hX hd hobl ?_ k
  intro l hl'
  have hmix' : MixedUp (tablePts f) refs truth P := hmix
  obtain ⟨pos, s1, s2, e1, -, -, -, -, e4, e5⟩ := C166_contamination hs (tablePts f) (by rw [hfst]; exact hn) P l (hmix'.known l hl')
    mode hm n V1 V2 hX (data l).1 (data l).2 (by rw [hfst]; exact (hd l hl').1) (by rw [hfst]; exact (hd l hl').2)
  obtain ⟨n1, n2, c1, c2⟩ := hclean l hl' pos s1 s2 e1
  simp only [hz _ c1, hz _ c2, sub_zero] at e4 e5
  refine ⟨pos, _, e1, ?_, fun h => e5 (Or.inr (Or.inr h))⟩
  intro ha hb
  obtain ⟨x, hx, x1, x2⟩ := e4 n1 n2 ha hb
  have hxx : x = P l := by
    simp only [along, Prod.fst_sub, Prod.snd_sub, Prod.fst_zero, Prod.snd_zero, zero_mul, add_zero, neg_zero] at x1 x2
    have y1 : (x.1 - (P l).1) * (V1.1 * V2.2 - V1.2 * V2.1) = 0 := by
      linear_combination V2.2 * x1 - V1.2 * x2
    have y2 : (x.2 - (P l).2) * (V1.1 * V2.2 - V1.2 * V2.1) = 0 := by
      linear_combination V1.1 * x2 - V2.1 * x1
    exact Prod.ext (by have := (mul_eq_zero.1 y1).resolve_right hX; linarith)
      (by have := (mul_eq_zero.1 y2).resolve_right hX; linarith)
  rw [hx, hxx]

/-- C165 violated: sensors displaced perpendicularly to one of the cloud motions (here the first) are not found.  If all misplaced
sensors are displaced in that direction, the procedure leaves every sensor where it is, however often it is repeated. -/
theorem C165_violated_left_in_place (lsa : LSA) (hl : IsLSA lsa) (nan : ℝ) {sort : SortValues ι} (hs : IsSortValues sort) (n : ℤ)
    (data : ι → CloudCase × CloudCase) (refs : List ι) (f : Frame ι String ℝ) (hn : f.index.Nodup) (hcols : f.cols = ["E", "N"])
    (hrn : refs.Nodup) (truth : List (ι × ι)) (P : ι → Vec) (hmix : MixedUp (coords "E" "N" f) refs truth P) (V1 V2 : Vec)
    (hX : V1.1 * V2.2 - V1.2 * V2.1 ≠ 0)
    (hd : ∀ l ∈ refs, ExactCase f.index P V1 l (data l).1 ∧ ExactCase f.index P V2 l (data l).2)
    (hperp : ∀ l ∈ refs, along (P l - posOf (coords "E" "N" f) l) V1 = 0) (k : ℕ) :
    ∃ r, reassign lsa nan sort "all" n data refs f k = .ok r ∧ r.Perm (refs.map fun l => (l, l)) ∧
      ((∃ p ∈ truth, p.1 ≠ p.2) → ¬ r.Perm truth) := by
  change MixedUp (tablePts f) refs truth P at hmix
  have hfst := tablePts_fst f
  have hk : ∀ l ∈ refs, l ∈ f.index := by
    intro l hl'; rw [← hfst]; exact hmix.known l hl'
  have round0 : ∀ f' : Frame ι String ℝ, f'.index = f.index → f'.cols = f.cols →
      (∀ l ∈ f.index, posOf (tablePts f') l = posOf (tablePts f) l) →
      ∃ r, reassignRound lsa nan sort "all" n data refs f' = .ok r ∧ r.Perm (refs.map fun l => (l, l)) := by
    intro f' e2 e3 e4
    have hfst' : (tablePts f').map Prod.fst = f.index := by rw [tablePts_fst, e2]
    have hmix' : MixedUp (tablePts f') refs truth P := by
      refine ⟨by rw [hfst', ← hfst]; exact hmix.known, hmix.bij, ?_, ?_⟩
      · intro p hp
        rw [hmix.moved p hp, e4 _ (hk _ (hmix.bij.2.mem_iff.1 (List.mem_map_of_mem hp)))]
      · intro l hl' hlr
        rw [hfst'] at hl'
        rw [hmix.rest l (by rw [hfst]; exact hl') hlr, e4 l hl']
    suffices h : ∃ r, reassignRound lsa nan sort "all" n data refs f' = .ok r ∧ r.Perm (refs.map fun l => (l, l)) ∧
        ((∃ l ∈ refs, ((.nan, .nan) : XR × XR) = (.nan, .nan)) → r.map Prod.fst = refs) by
      obtain ⟨r, h1, h2, -⟩ := h
      exact ⟨r, h1, h2⟩
    refine round_ok lsa hl nan sort "all" n data refs f' (by rw [e2]; exact hn) (by rw [e3]; exact hcols) (by rw [e2]; exact hk) hrn
      (fun _ => (.nan, .nan)) ?_ _ (bij_self refs) ?_
    · intro l hl'
      obtain ⟨pos, full, h, -, hb⟩ := predict_all hs n (tablePts f') (by rw [hfst']; exact hn) refs hrn truth P hmix' V1 V2 hX l hl'
        (data l).1 (data l).2 (by rw [hfst']; exact (hd l hl').1) (by rw [hfst']; exact (hd l hl').2)
      rw [e4 l (hk l hl')] at hb
      exact ⟨full, by rw [h, hb (Or.inl (hperp l hl'))]⟩
    · intro p hp
      obtain ⟨l, -, rfl⟩ := List.mem_map.1 hp
      exact Or.inl ⟨rfl, rfl⟩
  have main : ∃ r, reassign lsa nan sort "all" n data refs f k = .ok r ∧ r.Perm (refs.map fun l => (l, l)) := by
    induction k with
    | zero => exact round0 f rfl rfl (fun _ _ => rfl)
    | succ k ih =>
      obtain ⟨r, hr1, hr2⟩ := ih
      have hmixI : MixedUp (tablePts f) refs (refs.map fun l => (l, l)) (posOf (tablePts f)) := by
        refine ⟨by rw [hfst]; exact hk, bij_self refs, ?_, fun _ _ _ => rfl⟩
        intro p hp
        obtain ⟨l, -, rfl⟩ := List.mem_map.1 hp
        rfl
      obtain ⟨f', e1, e2, e3, e4⟩ := remapped nan f hn hcols refs _ _ hmixI hrn r hr2
      obtain ⟨s, s1, s2⟩ := round0 f' e2 e3 (fun l hl' => (e4 l hl').symm)
      have hb : IsBijection r refs := ⟨(hr2.map _).trans hmixI.bij.1, (hr2.map _).trans hmixI.bij.2⟩
      obtain ⟨o, o1, o2⟩ := cascade_self hrn hb s2
      refine ⟨o, ?_, o2.trans hr2⟩
      unfold reassign
      rw [hr1]
      show (remapPositions nan f r none >>= _) = _
      rw [e1]
      show (reassignRound lsa nan sort "all" n data refs f' >>= _) = _
      rw [s1]
      exact o1
  obtain ⟨r, r1, r2⟩ := main
  refine ⟨r, r1, r2, ?_⟩
  rintro ⟨p, hp, hne⟩ hperm
  obtain ⟨l, -, rfl⟩ := List.mem_map.1 (r2.mem_iff.1 (hperm.mem_iff.2 hp))
  exact hne rfl

/-! ## C169 -/

private theorem bind_ok {α β : Type} {x : Except PyErr α} {g : α → Except PyErr β} {b : β} (h : (x >>= g) = .ok b) :
    ∃ a, x = .ok a ∧ g a = .ok b := by
  cases x with
  | error e => cases h
  | ok a => exact ⟨a, rfl, h⟩

private theorem cascade_sorted {a b o : List (ι × ι)} (h : cascadeRemap a b = .ok o) : (o.map Prod.fst).Pairwise (· < ·) := by
  by_cases hk : ∀ k ∈ a.map Prod.fst, ∃ c, lastTarget b k = some c ∧ c ∈ a.map Prod.fst
  · obtain ⟨o', e1, e2, -⟩ := cascade_ok a b hk
    rw [h] at e1
    obtain rfl := Except.ok.inj e1
    exact e2
  · have he := cascade_error a b (by
      push Not at hk
      exact hk)
    rw [h] at he
    cases he

/-- C169 (partial): once a pass after the first has been confirmed (the round on the table remapped with its result pairs every
reference with itself), the next pass returns the identical list.  No assumption on the data.  Missing: the first pass
(`C169_violated_order`). -/
theorem C169_confirmed_partial (lsa : LSA) (nan : ℝ) (sort : SortValues ι) (mode : String) (n : ℤ)
    (data : ι → CloudCase × CloudCase) (refs : List ι) (f f' : Frame ι String ℝ) (k : ℕ) (r s : List (ι × ι))
    (h1 : reassign lsa nan sort mode n data refs f (k + 1) = .ok r) (h2 : remapPositions nan f r none = .ok f')
    (h3 : reassignRound lsa nan sort mode n data refs f' = .ok s) (h4 : s.Perm (r.map fun p => (p.1, p.1))) :
    reassign lsa nan sort mode n data refs f (k + 2) = .ok r := by
  have hsort : (r.map Prod.fst).Pairwise (· < ·) := by
    unfold reassign at h1
    obtain ⟨a, -, h1⟩ := bind_ok h1
    obtain ⟨g, -, h1⟩ := bind_ok h1
    obtain ⟨b, -, h1⟩ := bind_ok h1
    exact cascade_sorted h1
  have hn : (r.map Prod.fst).Nodup := hsort.imp ne_of_lt
  have hs1 : (s.map Prod.fst).Nodup := by
    refine ((h4.map Prod.fst).nodup_iff).2 ?_
    rw [List.map_map]; exact hn
  have hid : ∀ k ∈ r.map Prod.fst, lastTarget s k = some k := by
    intro k hk
    obtain ⟨p, hp, rfl⟩ := List.mem_map.1 hk
    exact lastTarget_of_mem hs1 (h4.mem_iff.2 (List.mem_map.2 ⟨p, hp, rfl⟩))
  obtain ⟨o, e1, e2, e3, e4⟩ := cascade_ok r s (fun k hk => ⟨k, hid k hk, hk⟩)
  have : o = r := by
    apply sorted_pairs_ext e2 hsort e3
    intro k hk
    rw [e3] at hk
    exact e4 k k hk (hid k hk)
  rw [this] at e1
  rw [show k + 2 = (k + 1) + 1 from rfl]
  unfold reassign
  rw [h1]
  show (remapPositions nan f r none >>= _) = _
  rw [h2]
  show (reassignRound lsa nan sort mode n data refs f' >>= _) = _
  rw [h3]
  exact e1

/-- C169 violated: with a correct table (nothing to do) the first pass returns the references in the order given, every later pass
in ascending order.  So for references that are not in ascending order the comparison of the lists in the demonstration reports a
change although every sensor was left in place both times. -/
theorem C169_violated_order (lsa : LSA) (hl : IsLSA lsa) (nan : ℝ) {sort : SortValues ι} (hs : IsSortValues sort) (mode : String)
    (hm : mode ∈ ["coherence", "preavg", "global_coherence", "distance", "all"]) (n : ℤ)
    (data : ι → CloudCase × CloudCase) (refs : List ι) (f : Frame ι String ℝ) (hn : f.index.Nodup) (hcols : f.cols = ["E", "N"])
    (hr : ∀ l ∈ refs, l ∈ f.index) (hrn : refs.Nodup) (V1 V2 : Vec) (hX : V1.1 * V2.2 - V1.2 * V2.1 ≠ 0)
    (hd : ∀ l ∈ refs, ExactCase f.index (posOf (coords "E" "N" f)) V1 l (data l).1 ∧
      ExactCase f.index (posOf (coords "E" "N" f)) V2 l (data l).2) (hord : ¬ refs.Pairwise (· < ·)) :
    ∃ r s, reassign lsa nan sort mode n data refs f 0 = .ok r ∧ reassign lsa nan sort mode n data refs f 1 = .ok s ∧
      r.Perm (refs.map fun l => (l, l)) ∧ s.Perm r ∧ r ≠ s := by
  obtain ⟨r, h1, h2, h3⟩ := round_correct lsa hl nan hs mode hm n data refs f hn hcols hr hrn (posOf (tablePts f)) (fun _ _ => rfl)
    V1 V2 hX hd
  obtain ⟨s, -, g1, g2, -⟩ := C167_correct_layout lsa hl nan hs mode hm n data refs f hn hcols hr hrn V1 V2 hX hd 1
  refine ⟨r, s, h1, g1, h2, g2.trans h2.symm, ?_⟩
  rintro rfl
  apply hord
  rw [← h3]
  unfold reassign at g1
  obtain ⟨a, -, g1⟩ := bind_ok g1
  obtain ⟨f', -, g1⟩ := bind_ok g1
  obtain ⟨b, -, g1⟩ := bind_ok g1
  exact cascade_sorted g1

/-! ## A plant that meets the hypotheses -/

def exTable : Frame ℕ String ℝ := ⟨["E", "N"], [(0, fun _ => 0), (1, fun c => if c = "E" then 10 else 5),
  (2, fun c => if c = "E" then 20 else 0), (3, fun c => if c = "E" then 5 else 20)]⟩

def exPlaces : ℕ → Vec := fun l => if l = 0 then (0, 0) else if l = 1 then (20, 0) else if l = 2 then (10, 5) else (5, 20)

noncomputable def exData : ℕ → CloudCase × CloudCase := fun ref =>
  (⟨(10, 0), [0, 1, 2, 3].map fun l => some (planeDelay (exPlaces l) (exPlaces ref) (10, 0)),
    [0, 1, 2, 3].map fun l => if l = ref then some 1 else if l = 0 ∨ l = 3 then some 0.5 else none⟩,
  ⟨(1, 7), [0, 1, 2, 3].map fun l => some (planeDelay (exPlaces l) (exPlaces ref) (1, 7)),
    [0, 1, 2, 3].map fun l => if l = ref then some 1 else if l = 0 ∨ l = 3 then some 0.5 else none⟩)

theorem ex_coords : coords "E" "N" exTable = [(0, (0, 0)), (1, (10, 5)), (2, (20, 0)), (3, (5, 20))] := by
  simp [coords, exTable]

theorem ex_index : exTable.index = [0, 1, 2, 3] := rfl

theorem ex_mixed : MixedUp (coords "E" "N" exTable) [1, 2] [(1, 2), (2, 1)] exPlaces := by
  rw [ex_coords]
  refine ⟨by simp, by unfold IsBijection; decide, ?_, ?_⟩
  · intro p hp
    simp only [List.mem_cons, List.not_mem_nil, or_false] at hp
    rcases hp with rfl | rfl <;> simp [exPlaces, posOf]
  · intro l hl hlr
    simp only [List.map_cons, List.map_nil, List.mem_cons, List.not_mem_nil, or_false] at hl hlr
    rcases hl with rfl | rfl | rfl | rfl <;> simp [exPlaces, posOf] at hlr ⊢

theorem ex_exact : ∀ l ∈ [1, 2], ExactCase exTable.index exPlaces (10, 0) l (exData l).1 ∧
    ExactCase exTable.index exPlaces (1, 7) l (exData l).2 := by
  intro l _
  rw [ex_index]
  exact ⟨⟨rfl, rfl, rfl⟩, ⟨rfl, rfl, rfl⟩⟩

theorem ex_oblique : ∀ p ∈ [(1, 2), (2, 1)], p.1 ≠ p.2 →
    along (exPlaces p.1 - posOf (coords "E" "N" exTable) p.1) (10, 0) ≠ 0 ∧
    along (exPlaces p.1 - posOf (coords "E" "N" exTable) p.1) (1, 7) ≠ 0 := by
  rw [ex_coords]
  intro p hp _
  simp only [List.mem_cons, List.not_mem_nil, or_false] at hp
  rcases hp with rfl | rfl <;> simp [exPlaces, posOf, along] <;> norm_num

theorem ex_distinct : ∀ k ∈ [1, 2], ∀ l ∈ [1, 2],
    posOf (coords "E" "N" exTable) k = posOf (coords "E" "N" exTable) l → k = l := by
  rw [ex_coords]
  intro k hk l hl
  simp only [List.mem_cons, List.not_mem_nil, or_false] at hk hl
  rcases hk with rfl | rfl <;> rcases hl with rfl | rfl <;> simp [posOf]

/-- Sensors 1 and 2 exchanged: found in mode 'all'. -/
example (lsa : LSA) (hl : IsLSA lsa) (sort : SortValues ℕ) (hs : IsSortValues sort) (k : ℕ) :
    ∃ r, reassign lsa 0 sort "all" 8 exData [1, 2] exTable k = .ok r ∧ r.Perm [(1, 2), (2, 1)] := by
  obtain ⟨r, -, h1, h2, -⟩ := C165_found_partial lsa hl 0 hs 8 exData [1, 2] exTable (by rw [ex_index]; decide) rfl (by decide)
    ex_distinct _ _ ex_mixed (10, 0) (1, 7) (by norm_num) ex_exact ex_oblique k
  exact ⟨r, h1, h2⟩

/-- Sensors 1 and 2 exchanged: found in mode 'coherence', because only sites 0 and 3 are used. -/
example (lsa : LSA) (hl : IsLSA lsa) (sort : SortValues ℕ) (hs : IsSortValues sort) (k : ℕ) :
    ∃ r, reassign lsa 0 sort "coherence" 8 exData [1, 2] exTable k = .ok r ∧ r.Perm [(1, 2), (2, 1)] := by
  have hclean : ∀ l ∈ [1, 2], ∀ pos s1 s2,
      predictedPosition sort (coords "E" "N" exTable) false l "coherence" 8 (exData l).1 (exData l).2 = .ok (pos, s1, s2) →
      s1 ≠ [] ∧ s2 ≠ [] ∧ (∀ x ∈ s1.map Prod.fst, exPlaces x = posOf (coords "E" "N" exTable) x) ∧
        ∀ x ∈ s2.map Prod.fst, exPlaces x = posOf (coords "E" "N" exTable) x := by
    intro l hl' pos s1 s2 he
    rw [ex_coords] at he ⊢
    simp only [List.mem_cons, List.not_mem_nil, or_false] at hl'
    let γ : ℕ → Option ℝ := fun x => if x = l then some 1 else if x = 0 ∨ x = 3 then some 0.5 else none
    let pts : List (ℕ × Vec) := [(0, (0, 0)), (1, (10, 5)), (2, (20, 0)), (3, (5, 20))]
    obtain ⟨pos', f1, f2, h1, h2, h3, -⟩ := Predict.C23_coherence hs pts (by decide) false l (posOf pts l)
      (by rcases hl' with rfl | rfl <;> simp [pts, posOf]) (10, 0) (1, 7) (by simp [Prod.ext_iff]) (by simp [Prod.ext_iff])
      (fun x => some (planeDelay (exPlaces x) (exPlaces l) (10, 0))) γ (fun x => some (planeDelay (exPlaces x) (exPlaces l) (1, 7))) γ
      8 (by norm_num) "coherence" (Or.inl rfl)
    have hc : predictedPosition sort pts false l "coherence" 8 (exData l).1 (exData l).2 = .ok (pos', f1, f2) := h1
    rw [hc] at he
    obtain ⟨rfl, rfl, rfl⟩ := (by simpa using he : pos' = pos ∧ f1 = s1 ∧ f2 = s2)
    have clean : ∀ S : List ℕ, BestButTop ((pts.map Prod.fst).filter fun x => (γ x).isSome) γ (8 : ℤ).toNat S →
        S ≠ [] ∧ ∀ x ∈ S, exPlaces x = posOf pts x := by
      intro S hS
      obtain ⟨-, b2, b3, b4⟩ := hS
      have hfil : (pts.map Prod.fst).filter (fun x => (γ x).isSome) = [0, l, 3] := by
        rcases hl' with rfl | rfl <;> simp [pts, γ, List.filter_cons]
      rw [hfil] at b2 b3 b4
      obtain ⟨top, t1, t2, t3, -⟩ := b4 (by simp)
      have htop : top = l := by
        have := t3 l (by simp)
        simp only [List.mem_cons, List.not_mem_nil, or_false] at t1
        rcases t1 with rfl | rfl | rfl
        · exfalso; rcases hl' with rfl | rfl <;> simp [γ, nanLE] at this <;> norm_num at this
        · rfl
        · exfalso; rcases hl' with rfl | rfl <;> simp [γ, nanLE] at this <;> norm_num at this
      rw [htop] at t2
      refine ⟨?_, ?_⟩
      · rintro rfl; simp at b3
      · intro x hx
        have := b2 x hx
        simp only [List.mem_cons, List.not_mem_nil, or_false] at this
        rcases this with rfl | rfl | rfl
        · simp [exPlaces, posOf, pts]
        · exact absurd hx t2
        · simp [exPlaces, posOf, pts]
    exact ⟨fun h => (clean _ h2).1 (by rw [h]; rfl), fun h => (clean _ h3).1 (by rw [h]; rfl), (clean _ h2).2, (clean _ h3).2⟩
  obtain ⟨r, -, h1, h2, -⟩ := C165_found_clean_sites_partial lsa hl 0 hs "coherence" (by simp) 8 exData [1, 2] exTable
    (by rw [ex_index]; decide) rfl (by decide) ex_distinct _ _ ex_mixed (10, 0) (1, 7) (by norm_num) ex_exact ex_oblique hclean k
  exact ⟨r, h1, h2⟩

/-- The same plant seen with a motion along (1, 2), perpendicular to the displacement (10, -5): the exchange is not found. -/
example (lsa : LSA) (hl : IsLSA lsa) (sort : SortValues ℕ) (hs : IsSortValues sort) (k : ℕ) :
    ∃ (data : ℕ → CloudCase × CloudCase) (r : List (ℕ × ℕ)), reassign lsa 0 sort "all" 8 data [1, 2] exTable k = .ok r ∧
      ¬ r.Perm [(1, 2), (2, 1)] := by
  let data : ℕ → CloudCase × CloudCase := fun ref =>
    (⟨(1, 2), [0, 1, 2, 3].map fun l => some (planeDelay (exPlaces l) (exPlaces ref) (1, 2)), [none, none, none, none]⟩,
    ⟨(1, 7), [0, 1, 2, 3].map fun l => some (planeDelay (exPlaces l) (exPlaces ref) (1, 7)), [none, none, none, none]⟩)
  obtain ⟨r, h1, -, h2⟩ := C165_violated_left_in_place lsa hl 0 hs 8 data [1, 2] exTable (by rw [ex_index]; decide) rfl (by decide)
    _ _ ex_mixed (1, 2) (1, 7) (by norm_num)
    (by
      intro l _
      rw [ex_index]
      exact ⟨⟨rfl, rfl, rfl⟩, ⟨rfl, rfl, rfl⟩⟩)
    (by
      rw [ex_coords]
      intro l hl'
      simp only [List.mem_cons, List.not_mem_nil, or_false] at hl'
      rcases hl' with rfl | rfl <;> simp [exPlaces, posOf, along] <;> norm_num) k
  exact ⟨data, r, h1, h2 ⟨(1, 2), by simp, by simp⟩⟩

/-- The table taken as correct, references in descending order. -/
noncomputable def exRight : ℕ → CloudCase × CloudCase := fun ref =>
  (⟨(10, 0), [0, 1, 2, 3].map fun l => some (planeDelay (posOf (coords "E" "N" exTable) l) (posOf (coords "E" "N" exTable) ref) (10, 0)),
    [none, some 1, some 0.2, some 0.1]⟩,
  ⟨(1, 7), [0, 1, 2, 3].map fun l => some (planeDelay (posOf (coords "E" "N" exTable) l) (posOf (coords "E" "N" exTable) ref) (1, 7)),
    [none, some 1, some 0.2, some 0.1]⟩)

private theorem exRight_exact : ∀ l ∈ [2, 1], ExactCase exTable.index (posOf (coords "E" "N" exTable)) (10, 0) l (exRight l).1 ∧
    ExactCase exTable.index (posOf (coords "E" "N" exTable)) (1, 7) l (exRight l).2 := by
  intro l _
  rw [ex_index]
  exact ⟨⟨rfl, rfl, rfl⟩, ⟨rfl, rfl, rfl⟩⟩

/-- C167 and C169 apply to the example plant. -/
example (lsa : LSA) (hl : IsLSA lsa) (sort : SortValues ℕ) (hs : IsSortValues sort) :
    (∃ r, reassign lsa 0 sort "preavg" 8 exRight [2, 1] exTable 5 = .ok r ∧ r.Perm [(2, 2), (1, 1)]) ∧
    ∃ r s, reassign lsa 0 sort "preavg" 8 exRight [2, 1] exTable 0 = .ok r ∧
      reassign lsa 0 sort "preavg" 8 exRight [2, 1] exTable 1 = .ok s ∧ r ≠ s := by
  obtain ⟨r, -, h1, h2, -⟩ := C167_correct_layout lsa hl 0 hs "preavg" (by simp) 8 exRight [2, 1] exTable (by rw [ex_index]; decide) rfl
    (by rw [ex_index]; decide) (by decide) (10, 0) (1, 7) (by norm_num) exRight_exact 5
  obtain ⟨a, b, g1, g2, -, -, g3⟩ := C169_violated_order lsa hl 0 hs "preavg" (by simp) 8 exRight [2, 1] exTable
    (by rw [ex_index]; decide) rfl (by rw [ex_index]; decide) (by decide) (10, 0) (1, 7) (by norm_num) exRight_exact (by decide)
  exact ⟨⟨r, h1, h2⟩, a, b, g1, g2, g3⟩

/-- The confirmed case of C169 occurs. -/
example (lsa : LSA) (hl : IsLSA lsa) (sort : SortValues ℕ) (hs : IsSortValues sort) :
    ∃ r f' s, reassign lsa 0 sort "preavg" 8 exRight [2, 1] exTable 1 = .ok r ∧ remapPositions 0 exTable r none = .ok f' ∧
      reassignRound lsa 0 sort "preavg" 8 exRight [2, 1] f' = .ok s ∧ s.Perm (r.map fun p => (p.1, p.1)) := by
  obtain ⟨r, f', h1, h2, h3, h4, h5⟩ := C167_correct_layout lsa hl 0 hs "preavg" (by simp) 8 exRight [2, 1] exTable
    (by rw [ex_index]; decide) rfl (by rw [ex_index]; decide) (by decide) (10, 0) (1, 7) (by norm_num) exRight_exact 1
  obtain ⟨f'', e1, -, e3, e4⟩ := remap_ok 0 exTable r none (by simp)
    (by
      intro p hp
      have := h2.mem_iff.1 hp
      simp only [List.map_cons, List.map_nil, List.mem_cons, List.not_mem_nil, or_false] at this
      rcases this with rfl | rfl <;> rw [ex_index] <;> decide)
    (by
      intro p hp
      have := h2.mem_iff.1 hp
      simp only [List.map_cons, List.map_nil, List.mem_cons, List.not_mem_nil, or_false] at this
      rcases this with rfl | rfl <;> rw [ex_index] <;> decide)
  rw [h3] at e1
  obtain rfl := Except.ok.inj e1
  obtain ⟨s, s1, s2, -⟩ := round_correct lsa hl 0 hs "preavg" (by simp) 8 exRight [2, 1] f' (by rw [h4, ex_index]; decide) (by rw [e3]; rfl)
    (by rw [h4, ex_index]; decide) (by decide) (posOf (coords "E" "N" exTable)) (by
      intro l hl'
      exact (h5 l (by rw [← h4]; exact hl')).symm) (10, 0) (1, 7) (by norm_num) (by rw [h4]; exact exRight_exact)
  refine ⟨r, f', s, h1, h3, s1, s2.trans ?_⟩
  have := (h2.map fun p => (p.1, p.1)).symm
  simpa using this

end

end SST.Props.Reassign
