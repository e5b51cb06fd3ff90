import Verif.Props.FullProcessData

/-!
# C171 and C172 violated; examples for C170-C175

A plant of two combiners whose recordings are identical (one sensor was wired to both channels): all delays are zero.
-/

namespace SST.Props.FullProcess
open SST SST.Field SST.Spec SST.Spatial

/-- The plan: combiner 0 at (0, 0), combiner 1 at (1, 1). -/
def twoPlan : Frame ℕ String ℝ := ⟨["E", "N"], [(0, fun _ => 0), (1, fun _ => 1)]⟩

/-- Two windows: wind from the west and from the south. -/
def twoWind : Bool → Vec := fun k => if k then (0, 1) else (1, 0)

/-- Identical recordings: no delays; a combiner is perfectly coherent with itself and nearly so with the other. -/
noncomputable def twoData : Bool → ℕ → CloudCase := fun k ref =>
  ⟨twoWind k, [some 0, some 0], [if ref = 0 then some 1 else some 0.9, if ref = 1 then some 1 else some 0.9]⟩

/-- The predictions of the demonstration: default mode and number of sites, kept pairs of windows. -/
noncomputable def twoPredict (sort : SortValues ℕ) : Predictor ℕ :=
  meanPredict sort "coherence" 8 (cmvPairs 45 twoWind [false, true]) twoData

private theorem two_pairs : cmvPairs 45 twoWind [false, true] = [(false, true)] := by
  have h : wellSeparated 45 (angBetween (twoWind false) (twoWind true)) := by
    rw [separated_iff (by norm_num) (by norm_num), show (45 : ℝ) * Real.pi / 180 = Real.pi / 4 by ring, Real.cos_pi_div_four, div_pow,
      Real.sq_sqrt (by norm_num)]
    simp [twoWind]
  have hc : combos [false, true] = [(false, true)] := rfl
  unfold cmvPairs
  rw [hc]
  simp [h]

private theorem two_used {ref : ℕ} (hr : ref = 0 ∨ ref = 1) {S : List ℕ}
    (h : BestButTop [0, 1] (fun l => if l = ref then some 1 else some 0.9) 8 S) : S = [1 - ref] := by
  obtain ⟨-, h2, h3, h4⟩ := h
  obtain ⟨top, t1, t2, t3, -⟩ := h4 (by simp)
  have htop : top = ref := by
    by_contra hne
    have := t3 ref (by rcases hr with rfl | rfl <;> simp)
    simp only [if_true, hne, if_false, nanLE] at this
    norm_num at this
  subst htop
  obtain ⟨x, rfl⟩ := List.length_eq_one_iff.1 (show S.length = 1 by simpa using h3)
  have hx := h2 x (by simp)
  have hne : x ≠ top := by rintro rfl; exact t2 (by simp)
  simp only [List.mem_cons, List.not_mem_nil, or_false] at hx
  congr 1
  omega

/-- What is predicted in a layout with the combiners at `q0` and `q1`: each at the place of the other, or NaN. -/
private theorem two_one {sort : SortValues ℕ} (hs : IsSortValues sort) (q : ℕ → Vec) {ref : ℕ} (hr : ref = 0 ∨ ref = 1) :
    ∃ full, predictedPosition sort [(0, q 0), (1, q 1)] false ref "coherence" 8 (twoData false ref) (twoData true ref) =
      .ok (if (q 0).1 ≠ (q 1).1 ∧ (q 0).2 ≠ (q 1).2 then (.fin (q (1 - ref)).1, .fin (q (1 - ref)).2) else (.nan, .nan), full) := by
  set pts : List (ℕ × Vec) := [(0, q 0), (1, q 1)] with hpts
  have hn : (pts.map Prod.fst).Nodup := by simp [hpts]
  have hex : ∀ k, ExactCase (pts.map Prod.fst) (fun _ => (0, 0)) (twoWind k) ref (twoData k ref) := by
    intro k
    refine ⟨rfl, ?_, rfl⟩
    simp [twoData, hpts, planeDelay]
  obtain ⟨pos, s1, s2, e1, -, -, -, -, e5, e6⟩ := Reassign.C166_contamination hs pts hn (fun _ => (0, 0)) ref
    (by rcases hr with rfl | rfl <;> simp [hpts]) "coherence" (by simp) 8 (twoWind false) (twoWind true) (by simp [twoWind]) _ _ (hex false) (hex true)
  have hcase : ∀ k, twoData k ref = Predict.case pts (twoWind k) (fun _ => some 0) (fun l => if l = ref then some 1 else some 0.9) := by
    intro k
    rcases hr with rfl | rfl <;> simp [twoData, Predict.case, hpts]
  obtain ⟨pos', f1, f2, g1, g2, g3, -, -⟩ := Predict.C23_coherence hs pts hn false ref (q ref)
    (by rcases hr with rfl | rfl <;> simp [hpts]) (twoWind false) (twoWind true) (by simp [twoWind]) (by simp [twoWind])
    (fun _ => some 0) (fun l => if l = ref then some 1 else some 0.9) (fun _ => some 0) (fun l => if l = ref then some 1 else some 0.9) 8 (by norm_num)
    "coherence" (Or.inl rfl)
  rw [← hcase, ← hcase, e1] at g1
  obtain ⟨rfl, rfl, rfl⟩ := (by simpa using g1 : pos = pos' ∧ s1 = f1 ∧ s2 = f2)
  have hlab : (pts.map Prod.fst).filter (fun l => (if l = ref then some (1 : ℝ) else some 0.9).isSome) = [0, 1] := by
    rcases hr with rfl | rfl <;> simp [hpts]
  rw [hlab] at g2 g3
  have u1 := two_used hr g2
  have u2 := two_used hr g3
  rw [u1, u2] at e5 e6
  have hp0 : posOf pts 0 = q 0 := by simp [hpts, posOf]
  have hp1 : posOf pts 1 = q 1 := by simp [hpts, posOf]
  have n1 : s1 ≠ [] := by rintro rfl; simp at u1
  have n2 : s2 ≠ [] := by rintro rfl; simp at u2
  refine ⟨(s1, s2), ?_⟩
  rw [e1]
  congr 1
  refine Prod.ext ?_ rfl
  simp only
  by_cases hq : (q 0).1 ≠ (q 1).1 ∧ (q 0).2 ≠ (q 1).2
  · rw [if_pos hq]
    have hq1 := sub_ne_zero.2 hq.1
    have hq2 := sub_ne_zero.2 hq.2
    obtain ⟨x, hx, x1, x2⟩ := e5 n1 n2
      (by rcases hr with rfl | rfl <;> simp [along, meanDisp, twoWind, hp0, hp1] <;> intro h <;> apply hq.1 <;> linarith)
      (by rcases hr with rfl | rfl <;> simp [along, meanDisp, twoWind, hp0, hp1] <;> intro h <;> apply hq.2 <;> linarith)
    rw [hx]
    rcases hr with rfl | rfl <;> simp [along, meanDisp, twoWind, hp0, hp1] at x1 x2 ⊢ <;> exact ⟨x1, x2⟩
  · rw [if_neg hq]
    apply e6
    right; right
    rw [not_and_or, not_not, not_not] at hq
    rcases hr with rfl | rfl <;> rcases hq with h | h <;> simp [along, meanDisp, twoWind, hp0, hp1, h]

private theorem two_mean {sort : SortValues ℕ} (hs : IsSortValues sort) (f : Frame ℕ String ℝ) (hi : f.index = [0, 1]) (q : ℕ → Vec)
    (hq : ∀ l ∈ f.index, posOf (coords "E" "N" f) l = q l) {ref : ℕ} (hr : ref = 0 ∨ ref = 1) :
    twoPredict sort f ref = .ok (if (q 0).1 ≠ (q 1).1 ∧ (q 0).2 ≠ (q 1).2 then ⟨some (q (1 - ref)).1, some (q (1 - ref)).2, []⟩
      else ⟨none, none, []⟩) := by
  have hpts : tablePts f = [(0, q 0), (1, q 1)] := by
    have h1 : (tablePts f).map Prod.fst = [0, 1] := by rw [tablePts_index, hi]
    have h0 := hq 0 (by rw [hi]; simp)
    have h2 := hq 1 (by rw [hi]; simp)
    change posOf (tablePts f) _ = _ at h0 h2
    obtain ⟨a, b, hm⟩ := List.length_eq_two.1 (show (tablePts f).length = 2 by simpa using congrArg List.length h1)
    rw [hm] at h0 h1 h2 ⊢
    simp only [List.map_cons, List.map_nil, List.cons.injEq, and_true] at h1
    simp only [posOf, List.find?_cons, h1.1, h1.2, decide_true, Option.map_some, Option.getD_some] at h0 h2
    simp at h2
    rw [← h0, ← h2, ← h1.1, ← h1.2]
  obtain ⟨full, e⟩ := two_one hs q hr
  unfold twoPredict meanPredict
  rw [two_pairs, hpts]
  simp only [List.mapM_cons, List.mapM_nil, e]
  by_cases hc : (q 0).1 ≠ (q 1).1 ∧ (q 0).2 ≠ (q 1).2
  · rw [if_pos hc, if_pos hc]
    simp [Except.map, bind, Except.bind, pure, Except.pure, storeRow, storeCoord, meanRows, meanO, mean]
  · rw [if_neg hc, if_neg hc]
    simp [Except.map, bind, Except.bind, pure, Except.pure, storeRow, storeCoord, meanRows, meanO]

/-- One group whose predictions are nearest to the places `truth`, or NaN where `truth` says that nothing moves. -/
private theorem group_found (lsa : LSA) (hl : IsLSA lsa) (nan : ℝ) (f : Frame ℕ String ℝ) (hn : f.index.Nodup)
    (hcols : f.cols = ["E", "N"]) (row : ℕ → PredRow) (refs : List ℕ) (hr : ∀ l ∈ refs, l ∈ f.index) (hrn : refs.Nodup)
    (truth : List (ℕ × ℕ)) (ht : IsBijection truth refs) (hnan : ∀ l ∈ refs, (row l).hasNaN = true → (l, l) ∈ truth)
    (hnear : ∀ l ∈ refs, (row l).hasNaN = false → ∀ t, (l, t) ∈ truth → ∀ k ∈ refs, k ≠ t →
      pdist ((row l).e.getD 0, (row l).n.getD 0) (posOf (coords "E" "N" f) t) <
      pdist ((row l).e.getD 0, (row l).n.getD 0) (posOf (coords "E" "N" f) k)) :
    ∃ r, assignGroup lsa nan f (f.index.map fun l => (l, row l)) refs = .ok r ∧ r.Perm truth := by
  obtain ⟨sub, s1, s2, s3, s4⟩ := locFrame_sub f hn refs hr hrn
  unfold assignGroup
  rw [s1, locPreds_map hn hr]
  have hpos : ∀ l ∈ refs, posOf (predCoords (refs.map fun l => (l, row l))) l = ((row l).e.getD 0, (row l).n.getD 0) := by
    intro l hl'
    refine posOf_mem (p := (l, ((row l).e.getD 0, (row l).n.getD 0))) ?_ ?_
    · simpa [predCoords, Function.comp_def] using hrn
    · simp only [predCoords, List.map_map, List.mem_map, Function.comp_apply]
      exact ⟨l, hl', rfl⟩
  obtain ⟨remap, out, c1, c2, -⟩ := Reassign.C168_nearest lsa hl nan sub (by rw [s3]; exact hrn) "E" "N" [] (by rw [s2, hcols])
    (refs.map fun l => (l, row l)) (by rw [s3]; simp [Function.comp_def]) truth (by rw [s3]; exact ht)
    (by
      intro p hp1 hp2
      obtain ⟨l, hl', rfl⟩ := List.mem_map.1 hp1
      exact hnan l hl' hp2)
    (by
      intro p hp1 hp2 t hb k hk hkb
      obtain ⟨l, hl', rfl⟩ := List.mem_map.1 hp1
      rw [s3] at hk
      have htm : t ∈ refs := ht.2.mem_iff.1 (List.mem_map.2 ⟨_, hb, rfl⟩)
      rw [hpos l hl', s4 t htm, s4 k hk]
      exact hnear l hl' hp2 t hb k hk hkb)
  refine ⟨remap, ?_, c2⟩
  show Except.map Prod.fst (assignPositions lsa nan sub _) = _
  rw [c1]
  rfl

/-- The group of both combiners: they are exchanged if the layout has them at places that differ in both coordinates, and left in
place if it has them at the same place. -/
private theorem two_group (lsa : LSA) (hl : IsLSA lsa) (nan : ℝ) (f : Frame ℕ String ℝ) (hi : f.index = [0, 1])
    (hcols : f.cols = ["E", "N"]) (q : ℕ → Vec) (hq : ∀ l ∈ f.index, posOf (coords "E" "N" f) l = q l) (row : ℕ → PredRow)
    (hrow : ∀ l ∈ f.index, row l = if (q 0).1 ≠ (q 1).1 ∧ (q 0).2 ≠ (q 1).2 then ⟨some (q (1 - l)).1, some (q (1 - l)).2, []⟩
      else ⟨none, none, []⟩) :
    ∃ r, assignGroup lsa nan f (f.index.map fun l => (l, row l)) [0, 1] = .ok r ∧
      r.Perm (if (q 0).1 ≠ (q 1).1 ∧ (q 0).2 ≠ (q 1).2 then [(0, 1), (1, 0)] else [(0, 0), (1, 1)]) := by
  have h0 := hq 0 (by rw [hi]; simp)
  have h1 := hq 1 (by rw [hi]; simp)
  have r0 := hrow 0 (by rw [hi]; simp)
  have r1 := hrow 1 (by rw [hi]; simp)
  refine group_found lsa hl nan f (by rw [hi]; simp) hcols row [0, 1] (by rw [hi]; exact fun _ h => h) (by simp) _ ?_ ?_ ?_
  · by_cases hc : (q 0).1 ≠ (q 1).1 ∧ (q 0).2 ≠ (q 1).2
    · rw [if_pos hc]; exact ⟨by simp, by simpa using List.Perm.swap 0 1 []⟩
    · rw [if_neg hc]; exact ⟨by simp, by simp⟩
  · intro l hl' hN
    by_cases hc : (q 0).1 ≠ (q 1).1 ∧ (q 0).2 ≠ (q 1).2
    · rw [if_pos hc] at r0 r1
      simp only [List.mem_cons, List.not_mem_nil, or_false] at hl'
      rcases hl' with rfl | rfl
      · rw [r0] at hN; simp [PredRow.hasNaN] at hN
      · rw [r1] at hN; simp [PredRow.hasNaN] at hN
    · rw [if_neg hc]
      simp only [List.mem_cons, List.not_mem_nil, or_false] at hl' ⊢
      rcases hl' with rfl | rfl <;> simp
  · intro l hl' hN t ht k hk hkt
    by_cases hc : (q 0).1 ≠ (q 1).1 ∧ (q 0).2 ≠ (q 1).2
    · rw [if_pos hc] at r0 r1 ht
      have z : ∀ v : Vec, pdist v v = 0 := by intro v; simp [pdist]
      have pos : ∀ v w : Vec, v.1 ≠ w.1 → 0 < pdist v w := by
        intro v w h
        apply Real.sqrt_pos.2
        have := sq_pos_of_ne_zero (sub_ne_zero.2 h)
        positivity
      simp only [List.mem_cons, List.not_mem_nil, or_false, Prod.mk.injEq] at hl' ht hk
      rcases ht with ⟨rfl, rfl⟩ | ⟨rfl, rfl⟩
      · obtain rfl : k = 0 := by omega
        rw [r0, h0, h1]
        simp only [Option.getD_some]
        rw [show ((q (1 - 0)).1, (q (1 - 0)).2) = q 1 from rfl, z]
        exact pos _ _ (Ne.symm hc.1)
      · obtain rfl : k = 1 := by omega
        rw [r1, h0, h1]
        simp only [Option.getD_some]
        rw [show ((q (1 - 1)).1, (q (1 - 1)).2) = q 0 from rfl, z]
        exact pos _ _ hc.1
    · rw [if_neg hc] at r0 r1
      simp only [List.mem_cons, List.not_mem_nil, or_false] at hl'
      rcases hl' with rfl | rfl
      · rw [r0] at hN; simp [PredRow.hasNaN] at hN
      · rw [r1] at hN; simp [PredRow.hasNaN] at hN

private theorem single_group (lsa : LSA) (hl : IsLSA lsa) (nan : ℝ) (f : Frame ℕ String ℝ) (hi : f.index = [0, 1])
    (hcols : f.cols = ["E", "N"]) (row : ℕ → PredRow) :
    assignGroup lsa nan f (f.index.map fun l => (l, row l)) [1] = .ok [(1, 1)] := by
  obtain ⟨r, e1, e2⟩ := group_found lsa hl nan f (by rw [hi]; simp) hcols row [1] (by rw [hi]; simp) (by simp) [(1, 1)]
    ⟨by simp, by simp⟩ (by simp) (by
      intro l hl' _ t ht k hk hkt
      simp only [List.mem_singleton, Prod.mk.injEq] at hl' ht hk
      omega)
  rw [e1, List.perm_singleton.1 e2]

private theorem perm_two {a b : ℕ × ℕ} {r : List (ℕ × ℕ)} (h : r.Perm [a, b]) : r = [a, b] ∨ r = [b, a] := by
  obtain ⟨x, y, rfl⟩ := List.length_eq_two.1 (show r.length = 2 by simpa using h.length_eq)
  have hx : x ∈ [a, b] := h.mem_iff.1 (by simp)
  simp only [List.mem_cons, List.not_mem_nil, or_false] at hx
  rcases hx with rfl | rfl
  · have := (List.perm_cons _).1 h
    simp at this
    exact Or.inl (by rw [this])
  · have := (List.perm_cons _).1 (h.trans (List.Perm.swap _ _ _))
    simp at this
    exact Or.inr (by rw [this])

private theorem two_preds {sort : SortValues ℕ} (hs : IsSortValues sort) (f : Frame ℕ String ℝ) (hi : f.index = [0, 1]) (q : ℕ → Vec)
    (hq : ∀ l ∈ f.index, posOf (coords "E" "N" f) l = q l) :
    predictAll (twoPredict sort) f [0, 1] = .ok (f.index.map fun l => (l, if (q 0).1 ≠ (q 1).1 ∧ (q 0).2 ≠ (q 1).2 then
      (⟨some (q (1 - l)).1, some (q (1 - l)).2, []⟩ : PredRow) else ⟨none, none, []⟩)) := by
  unfold predictAll
  rw [mapM_ok_map (h := fun l => (l, if (q 0).1 ≠ (q 1).1 ∧ (q 0).2 ≠ (q 1).2 then
      (⟨some (q (1 - l)).1, some (q (1 - l)).2, []⟩ : PredRow) else ⟨none, none, []⟩)), hi]
  intro l hl'
  rw [two_mean hs f hi q hq (by simpa using hl')]
  rfl

private theorem two_layout (nan : ℝ) (r : List (ℕ × ℕ)) (h : ∀ p ∈ r, p.1 ∈ [0, 1] ∧ p.2 ∈ [0, 1]) :
    ∃ f', remapPositions nan twoPlan r none = .ok f' ∧ f'.index = [0, 1] ∧ f'.cols = ["E", "N"] ∧
      ∀ l ∈ f'.index, posOf (coords "E" "N" f') l = posOf (coords "E" "N" twoPlan) ((lastTarget r l).getD l) := by
  obtain ⟨f', e1, e2, e3, e4⟩ := remap_ok nan twoPlan r none (by simp) (fun p hp => (h p hp).1) (fun p hp => (h p hp).2)
  refine ⟨f', e1, e2, e3, ?_⟩
  intro l hl'
  rw [e2] at hl'
  have hrow := e4 l hl'
  have hm : (lastTarget r l).getD l ∈ twoPlan.index := by
    cases ht : lastTarget r l with
    | none => exact hl'
    | some t =>
      unfold lastTarget at ht
      obtain ⟨p, hp, rfl⟩ := Option.map_eq_some_iff.1 ht
      exact (h p (List.mem_reverse.1 (List.mem_of_find?_eq_some hp))).2
  obtain ⟨row, hr⟩ := Frame.row?_isSome hm
  show posOf (tablePts f') l = posOf (tablePts twoPlan) _
  rw [posOf_tablePts hrow (by rw [e2]; simp [twoPlan, Frame.index]), posOf_tablePts hr (by simp [twoPlan, Frame.index])]
  simp [twoPlan, hr] at hr ⊢

private theorem plan_pos : posOf (coords "E" "N" twoPlan) 0 = (0, 0) ∧ posOf (coords "E" "N" twoPlan) 1 = (1, 1) := by
  simp [coords, twoPlan, posOf]

private theorem index_plan : twoPlan.index = [0, 1] := rfl

/-! ## C171 violated -/

/-- Combiner 0 belongs to inverter "1", combiner 1 to inverter "11". -/
def nestedNames : ℕ → String := fun l => if l = 0 then "1" else "11"

private theorem nested_ids : invIds nestedNames [0, 1] = ["1", "11"] := by
  have h : ("1" : String) ≤ "11" := by decide +kernel
  simp [invIds, nestedNames, List.mergeSort, h]

private theorem nested_sub : refsub nestedNames [0, 1] "1" = [0, 1] ∧ refsub nestedNames [0, 1] "11" = [1] := by
  constructor <;> decide +kernel

private theorem nested_round (lsa : LSA) (hl : IsLSA lsa) (nan : ℝ) {sort : SortValues ℕ} (hs : IsSortValues sort) (f : Frame ℕ String ℝ)
    (hi : f.index = [0, 1]) (hcols : f.cols = ["E", "N"]) (q : ℕ → Vec) (hq : ∀ l ∈ f.index, posOf (coords "E" "N" f) l = q l) :
    ∃ r, roundRemap lsa nan (twoPredict sort) nestedNames [0, 1] f = .ok (r ++ [(1, 1)]) ∧
      r.Perm (if (q 0).1 ≠ (q 1).1 ∧ (q 0).2 ≠ (q 1).2 then [(0, 1), (1, 0)] else [(0, 0), (1, 1)]) := by
  obtain ⟨r, e1, e2⟩ := two_group lsa hl nan f hi hcols q hq _ (fun l _ => rfl)
  refine ⟨r, ?_, e2⟩
  unfold roundRemap
  rw [two_preds hs f hi q hq, nested_ids]
  simp only [bind, Except.bind, List.mapM_cons, List.mapM_nil, nested_sub.1, nested_sub.2, e1,
    single_group lsa hl nan f hi hcols _, pure, Except.pure, Except.map]
  simp

/-- C171 violated: the name of an inverter may be part of the name of another one ("1" and "11").  Its combiners are then assigned twice,
and the procedure ends, converged, with two combiners at the same place and no combiner at another place. -/
theorem C171_violated_same_place (lsa : LSA) (hl : IsLSA lsa) (nan : ℝ) {sort : SortValues ℕ} (hs : IsSortValues sort) :
    ∃ st, procLoop lsa nan (twoPredict sort) nestedNames twoPlan 10 (procInit twoPlan) = .ok (some st) ∧
      st.remap = [(0, 1), (1, 1)] ∧ st.changed = [] ∧ ¬ IsBijection st.remap twoPlan.index ∧
      posOf (coords "E" "N" st.layout) 0 = (1, 1) ∧ posOf (coords "E" "N" st.layout) 1 = (1, 1) := by
  obtain ⟨p0, p1⟩ := plan_pos
  have init : procInit twoPlan = ⟨[(0, 0), (1, 1)], twoPlan, [[(0, 0), (1, 1)]], [twoPlan], []⟩ := rfl
  -- first round
  obtain ⟨r, r1, r2⟩ := nested_round lsa hl nan hs twoPlan rfl rfl (posOf (coords "E" "N" twoPlan)) (fun _ _ => rfl)
  rw [p0, p1] at r2
  simp only [ne_eq, zero_ne_one, not_false_eq_true, and_self, if_true] at r2
  have c1 : cascadeRemap [((0 : ℕ), (0 : ℕ)), (1, 1)] (r ++ [(1, 1)]) = .ok [(0, 1), (1, 1)] := by
    rcases perm_two r2 with rfl | rfl <;>
    simp [cascadeRemap, dictOf, cascadeStep, sortPairs, List.mergeSort, dictGet?, dictSet, bind, Except.bind, Except.map, pure, Except.pure]
  obtain ⟨f1, l1, l2, l3, l4⟩ := two_layout nan [(0, 1), (1, 1)] (by simp)
  have q0 : posOf (coords "E" "N" f1) 0 = (1, 1) := by
    rw [l4 0 (by rw [l2]; simp), show (lastTarget [((0 : ℕ), (1 : ℕ)), (1, 1)] 0).getD 0 = 1 by decide, p1]
  have q1 : posOf (coords "E" "N" f1) 1 = (1, 1) := by
    rw [l4 1 (by rw [l2]; simp), show (lastTarget [((0 : ℕ), (1 : ℕ)), (1, 1)] 1).getD 1 = 1 by decide, p1]
  set st1 : ProcState ℕ := ⟨[(0, 1), (1, 1)], f1, [[(0, 0), (1, 1)], [(0, 1), (1, 1)]], [twoPlan, f1], [0]⟩ with hst1
  have step1 : procStep lsa nan (twoPredict sort) nestedNames twoPlan (procInit twoPlan) = .ok (st1, true) := by
    unfold procStep
    rw [init, index_plan]
    simp only [r1, bind, Except.bind, c1, l1, Except.map]
    simp [procUpdate, changedIds, hst1]
  -- second round
  obtain ⟨s, s1, s2⟩ := nested_round lsa hl nan hs f1 l2 l3 (posOf (coords "E" "N" f1)) (fun _ _ => rfl)
  rw [q0, q1] at s2
  simp only [ne_eq, not_true_eq_false, and_self, if_false] at s2
  have c2 : cascadeRemap [((0 : ℕ), (1 : ℕ)), (1, 1)] (s ++ [(1, 1)]) = .ok [(0, 1), (1, 1)] := by
    rcases perm_two s2 with rfl | rfl <;>
    simp [cascadeRemap, dictOf, cascadeStep, sortPairs, List.mergeSort, dictGet?, dictSet, bind, Except.bind, Except.map, pure, Except.pure]
  have step2 : procStep lsa nan (twoPredict sort) nestedNames twoPlan st1 =
      .ok (⟨[(0, 1), (1, 1)], f1, st1.remaps ++ [[(0, 1), (1, 1)]], st1.layouts ++ [f1], []⟩, false) := by
    unfold procStep
    rw [index_plan]
    simp only [hst1, s1, bind, Except.bind, c2, l1, Except.map]
    simp [procUpdate, changedIds]
  refine ⟨⟨[(0, 1), (1, 1)], f1, st1.remaps ++ [[(0, 1), (1, 1)]], st1.layouts ++ [f1], []⟩, ?_, rfl, rfl, ?_, q0, q1⟩
  · show procLoop lsa nan (twoPredict sort) nestedNames twoPlan (8 + 1 + 1) (procInit twoPlan) = _
    unfold procLoop
    rw [step1]
    simp only [bind, Except.bind, if_true]
    unfold procLoop
    rw [step2]
    rfl
  · rintro ⟨-, h⟩
    have : 0 ∈ [((0 : ℕ), (1 : ℕ)), (1, 1)].map Prod.snd := h.mem_iff.2 (by simp [index_plan])
    simp at this

/-! ## C172 violated -/

/-- Both combiners belong to the same inverter. -/
def oneName : ℕ → String := fun _ => "7"

private theorem one_round (lsa : LSA) (hl : IsLSA lsa) (nan : ℝ) {sort : SortValues ℕ} (hs : IsSortValues sort) (f : Frame ℕ String ℝ)
    (hi : f.index = [0, 1]) (hcols : f.cols = ["E", "N"]) (q : ℕ → Vec) (hq : ∀ l ∈ f.index, posOf (coords "E" "N" f) l = q l) :
    ∃ r, roundRemap lsa nan (twoPredict sort) oneName [0, 1] f = .ok r ∧
      r.Perm (if (q 0).1 ≠ (q 1).1 ∧ (q 0).2 ≠ (q 1).2 then [(0, 1), (1, 0)] else [(0, 0), (1, 1)]) := by
  obtain ⟨r, e1, e2⟩ := two_group lsa hl nan f hi hcols q hq _ (fun l _ => rfl)
  refine ⟨r, ?_, e2⟩
  have h1 : invIds oneName [0, 1] = ["7"] := by simp [invIds, oneName]
  have h2 : refsub oneName [0, 1] "7" = [0, 1] := by decide +kernel
  unfold roundRemap
  rw [two_preds hs f hi q hq, h1]
  simp only [bind, Except.bind, List.mapM_cons, List.mapM_nil, h2, e1, pure, Except.pure, Except.map]
  simp

/-- C172 violated: when the procedure goes in circles, the mapping it reports is not the last one found ("the final entry in remaps"):
here the last mapping says that both combiners are where the plan says, the reported one exchanges them. -/
theorem C172_violated_reports_other (lsa : LSA) (hl : IsLSA lsa) (nan : ℝ) {sort : SortValues ℕ} (hs : IsSortValues sort) :
    ∃ st, procLoop lsa nan (twoPredict sort) oneName twoPlan 10 (procInit twoPlan) = .ok (some st) ∧
      st.remap = [(0, 1), (1, 0)] ∧ st.remaps.getLast? = some [(0, 0), (1, 1)] ∧ st.changed = [0, 1] := by
  obtain ⟨p0, p1⟩ := plan_pos
  have init : procInit twoPlan = ⟨[(0, 0), (1, 1)], twoPlan, [[(0, 0), (1, 1)]], [twoPlan], []⟩ := rfl
  obtain ⟨r, r1, r2⟩ := one_round lsa hl nan hs twoPlan rfl rfl (posOf (coords "E" "N" twoPlan)) (fun _ _ => rfl)
  rw [p0, p1] at r2
  simp only [ne_eq, zero_ne_one, not_false_eq_true, and_self, if_true] at r2
  have c1 : cascadeRemap [((0 : ℕ), (0 : ℕ)), (1, 1)] r = .ok [(0, 1), (1, 0)] := by
    rcases perm_two r2 with rfl | rfl <;>
    simp [cascadeRemap, dictOf, cascadeStep, sortPairs, List.mergeSort, dictGet?, dictSet, bind, Except.bind, Except.map, pure, Except.pure]
  obtain ⟨f1, l1, l2, l3, l4⟩ := two_layout nan [(0, 1), (1, 0)] (by simp)
  have q0 : posOf (coords "E" "N" f1) 0 = (1, 1) := by
    rw [l4 0 (by rw [l2]; simp), show (lastTarget [((0 : ℕ), (1 : ℕ)), (1, 0)] 0).getD 0 = 1 by decide, p1]
  have q1 : posOf (coords "E" "N" f1) 1 = (0, 0) := by
    rw [l4 1 (by rw [l2]; simp), show (lastTarget [((0 : ℕ), (1 : ℕ)), (1, 0)] 1).getD 1 = 0 by decide, p0]
  set st1 : ProcState ℕ := ⟨[(0, 1), (1, 0)], f1, [[(0, 0), (1, 1)], [(0, 1), (1, 0)]], [twoPlan, f1], [0, 1]⟩ with hst1
  have step1 : procStep lsa nan (twoPredict sort) oneName twoPlan (procInit twoPlan) = .ok (st1, true) := by
    unfold procStep
    rw [init, index_plan]
    simp only [r1, bind, Except.bind, c1, l1, Except.map]
    simp [procUpdate, changedIds, hst1]
  obtain ⟨s, s1, s2⟩ := one_round lsa hl nan hs f1 l2 l3 (posOf (coords "E" "N" f1)) (fun _ _ => rfl)
  rw [q0, q1] at s2
  simp only [ne_eq, one_ne_zero, not_false_eq_true, and_self, if_true] at s2
  have c2 : cascadeRemap [((0 : ℕ), (1 : ℕ)), (1, 0)] s = .ok [(0, 0), (1, 1)] := by
    rcases perm_two s2 with rfl | rfl <;>
    simp [cascadeRemap, dictOf, cascadeStep, sortPairs, List.mergeSort, dictGet?, dictSet, bind, Except.bind, Except.map, pure, Except.pure]
  obtain ⟨f2, m1, -⟩ := two_layout nan [(0, 0), (1, 1)] (by simp)
  have step2 : procStep lsa nan (twoPredict sort) oneName twoPlan st1 =
      .ok (⟨[(0, 1), (1, 0)], f1, st1.remaps ++ [[(0, 0), (1, 1)]], st1.layouts ++ [f2], [0, 1]⟩, false) := by
    unfold procStep
    rw [index_plan]
    simp only [hst1, s1, bind, Except.bind, c2, m1, Except.map]
    simp [procUpdate, changedIds]
  refine ⟨⟨[(0, 1), (1, 0)], f1, st1.remaps ++ [[(0, 0), (1, 1)]], st1.layouts ++ [f2], [0, 1]⟩, ?_, rfl, by simp, rfl⟩
  show procLoop lsa nan (twoPredict sort) oneName twoPlan (8 + 1 + 1) (procInit twoPlan) = _
  unfold procLoop
  rw [step1]
  simp only [bind, Except.bind, if_true]
  unfold procLoop
  rw [step2]
  rfl

/-! ## Examples -/

/-- C171, C172: the predictions of the two combiners exist in every layout. -/
example (lsa : LSA) (hl : IsLSA lsa) (sort : SortValues ℕ) (hs : IsSortValues sort) :
    ∃ st, procLoop lsa 0 (twoPredict sort) oneName twoPlan 10 (procInit twoPlan) = .ok (some st) ∧ WithinInverters oneName [0, 1] st.remap := by
  obtain ⟨st, h1, h2, -⟩ := C171_within_inverters_partial lsa hl 0 (twoPredict sort) oneName twoPlan (by rw [index_plan]; decide) rfl
    (fun _ _ _ _ _ => rfl) (by
      intro f' hi _ l hl'
      rw [index_plan] at hi hl'
      exact ⟨_, two_mean hs f' hi _ (fun _ _ => rfl) (by simpa using hl')⟩)
  exact ⟨st, h1, h2⟩

def plan4 : Frame ℕ String ℝ := ⟨["E", "N"], [(0, fun _ => 0), (1, fun c => if c = "E" then 10 else 5),
  (2, fun c => if c = "E" then 20 else 0), (3, fun c => if c = "E" then 5 else 20)]⟩

/-- Combiners 1 and 2 are exchanged in the plan. -/
def places4 : ℕ → Vec := fun l => if l = 0 then (0, 0) else if l = 1 then (20, 0) else if l = 2 then (10, 5) else (5, 20)

def inv4 : ℕ → String := fun l => if l = 1 ∨ l = 2 then "7" else "8"

noncomputable def data4 (V : Bool → Vec) (P : ℕ → Vec) : Bool → ℕ → CloudCase := fun k ref =>
  ⟨V k, [0, 1, 2, 3].map fun l => some (planeDelay (P l) (P ref) (V k)), [none, none, some 1, none]⟩

theorem plan4_coords : coords "E" "N" plan4 = [(0, (0, 0)), (1, (10, 5)), (2, (20, 0)), (3, (5, 20))] := by
  simp [coords, plan4]

theorem plan4_index : plan4.index = [0, 1, 2, 3] := rfl

theorem apart4 : NamesApart inv4 plan4.index := by
  have key : ∀ a b : String, a ∈ ["7", "8"] → b ∈ ["7", "8"] →
      (∃ pre post : List Char, b.toList = pre ++ a.toList ++ post) → a = b := by
    intro a b ha hb ⟨pre, post, h⟩
    have hlen := congrArg List.length h
    simp only [List.mem_cons, List.not_mem_nil, or_false] at ha hb
    have h7 : "7".toList = ['7'] := by decide +kernel
    have h8 : "8".toList = ['8'] := by decide +kernel
    rcases ha with rfl | rfl <;> rcases hb with rfl | rfl
    · rfl
    · rw [h7, h8] at hlen h
      have : pre = [] ∧ post = [] := by
        simp at hlen
        exact ⟨List.length_eq_zero_iff.1 (by omega), List.length_eq_zero_iff.1 (by omega)⟩
      rw [this.1, this.2] at h; simp at h
    · rw [h7, h8] at hlen h
      have : pre = [] ∧ post = [] := by
        simp at hlen
        exact ⟨List.length_eq_zero_iff.1 (by omega), List.length_eq_zero_iff.1 (by omega)⟩
      rw [this.1, this.2] at h; simp at h
    · rfl
  intro a _ b _ h
  refine key _ _ ?_ ?_ h <;> (unfold inv4; split_ifs <;> simp)

theorem within4 : WithinInverters inv4 plan4.index [(0, 0), (1, 2), (2, 1), (3, 3)] := by
  rw [plan4_index]
  refine ⟨by unfold IsBijection; decide, ?_⟩
  intro p hp
  simp only [List.mem_cons, List.not_mem_nil, or_false] at hp
  rcases hp with rfl | rfl | rfl | rfl <;> simp [inv4]

theorem moved4 : ∀ p ∈ [(0, 0), (1, 2), (2, 1), (3, 3)], places4 p.1 = posOf (coords "E" "N" plan4) p.2 := by
  rw [plan4_coords]
  intro p hp
  simp only [List.mem_cons, List.not_mem_nil, or_false] at hp
  rcases hp with rfl | rfl | rfl | rfl <;> simp [places4, posOf]

theorem exact4 (V : Bool → Vec) (P : ℕ → Vec) : ∀ k ∈ [false, true], ∀ l ∈ plan4.index,
    ExactCase plan4.index P (V k) l (data4 V P k l) := by
  intro k _ l _
  rw [plan4_index]
  exact ⟨rfl, rfl, rfl⟩

theorem distinct4 : ∀ k ∈ plan4.index, ∀ l ∈ plan4.index, inv4 k = inv4 l →
    posOf (coords "E" "N" plan4) k = posOf (coords "E" "N" plan4) l → k = l := by
  rw [plan4_coords, plan4_index]
  intro k hk l hl _
  simp only [List.mem_cons, List.not_mem_nil, or_false] at hk hl
  rcases hk with rfl | rfl | rfl | rfl <;> rcases hl with rfl | rfl | rfl | rfl <;> simp [posOf]

/-- C174: four combiners of two inverters, at the places of the plan. -/
example (lsa : LSA) (hl : IsLSA lsa) (sort : SortValues ℕ) (hs : IsSortValues sort) (V : Bool → Vec) :
    ∃ st, procLoop lsa 0 (meanPredict sort "coherence" 8 (cmvPairs 45 V [false, true]) (data4 V (posOf (coords "E" "N" plan4)))) inv4 plan4 10
      (procInit plan4) = .ok (some st) ∧ ∀ p ∈ st.remap, p.1 = p.2 := by
  obtain ⟨st, h1, h2, -⟩ := C174_confirmed lsa hl 0 hs "coherence" (by simp) 8 [false, true] (by decide) V _ inv4 plan4
    (by rw [plan4_index]; decide) rfl apart4 (exact4 V _)
  exact ⟨st, h1, h2⟩

/-- C173, C175: combiners 1 and 2 exchanged; found with winds along (10, 0) and (1, 7). -/
example (lsa : LSA) (hl : IsLSA lsa) (sort : SortValues ℕ) (hs : IsSortValues sort) :
    ∃ (V : Bool → Vec) (st : ProcState ℕ), procLoop lsa 0 (meanPredict sort "all" 8 (cmvPairs 45 V [false, true]) (data4 V places4)) inv4 plan4 10
      (procInit plan4) = .ok (some st) ∧ st.remap.Perm [(0, 0), (1, 2), (2, 1), (3, 3)] := by
  let V : Bool → Vec := fun k => if k then (1, 7) else (10, 0)
  have hw := (C176_45_degrees V [false, true] (by decide) false true (by simp) (by simp) (by simp)).2 (by simp [V]; norm_num)
  have hall : ∀ (p : ℕ × ℕ), p ∈ [(0, 0), (1, 2), (2, 1), (3, 3)] → p.1 ≠ p.2 → ∀ k : Bool,
      along (places4 p.1 - posOf (coords "E" "N" plan4) p.1) (V k) ≠ 0 := by
    rw [plan4_coords]
    intro p hp hne k
    simp only [List.mem_cons, List.not_mem_nil, or_false] at hp
    rcases hp with rfl | rfl | rfl | rfl
    · exact absurd rfl hne
    · cases k <;> simp [places4, posOf, along, V] <;> norm_num
    · cases k <;> simp [places4, posOf, along, V] <;> norm_num
    · exact absurd rfl hne
  obtain ⟨st, h1, h2, -⟩ := C175_found_partial lsa hl 0 hs 8 [false, true] (by decide) V (data4 V places4) inv4 plan4
    (by rw [plan4_index]; decide) rfl apart4 distinct4 _ within4 places4 moved4 (exact4 V _) (by
      intro p hp hne
      rcases hw with h | h
      · exact ⟨_, h, hall p hp hne _, hall p hp hne _⟩
      · exact ⟨_, h, hall p hp hne _, hall p hp hne _⟩)
  exact ⟨V, st, h1, h2⟩

/-- C175 violated: the same exchange with a wind along (1, 2), perpendicular to the displacement. -/
example (lsa : LSA) (hl : IsLSA lsa) (sort : SortValues ℕ) (hs : IsSortValues sort) :
    ∃ (V : Bool → Vec) (st : ProcState ℕ), cmvPairs 45 V [false, true] ≠ [] ∧
      procLoop lsa 0 (meanPredict sort "all" 8 (cmvPairs 45 V [false, true]) (data4 V places4)) inv4 plan4 10
      (procInit plan4) = .ok (some st) ∧ st.changed = [] ∧ ¬ st.remap.Perm [(0, 0), (1, 2), (2, 1), (3, 3)] := by
  let V : Bool → Vec := fun k => if k then (1, -1) else (1, 2)
  have hw := (C176_45_degrees V [false, true] (by decide) false true (by simp) (by simp) (by simp)).2 (by simp [V]; norm_num)
  have hz : ∀ (p : ℕ × ℕ), p ∈ [(0, 0), (1, 2), (2, 1), (3, 3)] →
      along (places4 p.1 - posOf (coords "E" "N" plan4) p.1) (V false) = 0 := by
    rw [plan4_coords]
    intro p hp
    simp only [List.mem_cons, List.not_mem_nil, or_false] at hp
    rcases hp with rfl | rfl | rfl | rfl <;> simp [places4, posOf, along, V] <;> norm_num
  obtain ⟨st, h1, -, h3, h4⟩ := C175_violated_confirms_wrong_plan lsa hl 0 hs 8 [false, true] (by decide) V (data4 V places4) inv4 plan4
    (by rw [plan4_index]; decide) rfl apart4 _ within4 places4 moved4 (exact4 V _) (by
      intro p hp w hw'
      have hne := ((C176_pairs 45 (by norm_num) (by norm_num) V [false, true] (by decide)).2.1 w hw').2.2.1
      rcases hb : w.1 with _ | _
      · exact Or.inl (hz p hp)
      · right
        have : w.2 = false := by
          cases h : w.2
          · rfl
          · rw [hb, h] at hne; exact absurd rfl hne
        rw [this]; exact hz p hp)
  refine ⟨V, st, ?_, h1, h3, h4 ⟨(1, 2), by simp, by simp⟩⟩
  rcases hw with h | h <;> exact List.ne_nil_of_mem h

end SST.Props.FullProcess
