import Verif.Proofs.Remap

/-!
# Properties C15-C17: `remap_positions` and `cascade_remap` of `field.py`

Specifications: `Spec/Remap.lean`.
-/

namespace SST.Props.Field
open SST SST.Field SST.Spec

variable {ι κ α : Type} [DecidableEq κ]

section
variable [DecidableEq ι]

/-! ## C15 -/

/-- C15: every row named by a first element receives the ORIGINAL data of the row named by the last
matching pair (in the selected columns only); everything else, the labels and their order stay. -/
theorem C15_remap_cells (nan : α) (d : Frame ι κ α) (remap : List (ι × ι))
    (columns : Option (List κ)) (hcol : ∀ cs, columns = some cs → ∀ c ∈ cs, c ∈ d.cols)
    (h1 : ∀ p ∈ remap, p.1 ∈ d.index) (h2 : ∀ p ∈ remap, p.2 ∈ d.index) :
    ∃ d', remapPositions nan d remap columns = .ok d' ∧ d'.index = d.index ∧ d'.cols = d.cols ∧
      ∀ l ∈ d.index, ∀ c ∈ d.cols,
        ((∀ cs, columns = some cs → c ∈ cs) → ∀ s, lastTarget remap l = some s →
          cell d' l c = cell d s c) ∧
        ((∃ cs, columns = some cs ∧ c ∉ cs) ∨ l ∉ remap.map Prod.fst →
          cell d' l c = cell d l c) := by
  have hc : ∀ c ∈ columns.getD d.cols, c ∈ d.cols := by
    cases columns with
    | none => simp
    | some cs => simpa using hcol cs rfl
  obtain ⟨d', e1, e2, e3, e4⟩ := remap_ok nan d remap columns hc h1 h2
  refine ⟨d', e1, e2, e3, ?_⟩
  intro l hl c hcc
  have hrow := e4 l hl
  obtain ⟨r, hr⟩ := Frame.row?_isSome hl
  constructor
  · intro hsel s hs
    have hmem : c ∈ columns.getD d.cols := by
      cases columns with
      | none => simpa using hcc
      | some cs => simpa using hsel cs rfl
    have hsi : s ∈ d.index := h2 _ (lastTarget_mem hs)
    obtain ⟨r', hr'⟩ := Frame.row?_isSome hsi
    rw [cell_eq, cell_eq, e3, hrow, hr', if_pos hcc, if_pos hcc]
    simp [hmem, hs, hr']
  · intro h
    rw [cell_eq, cell_eq, e3, hrow, hr, if_pos hcc, if_pos hcc]
    rcases h with ⟨cs, rfl, hn⟩ | hn
    · simp [hn]
    · simp [lastTarget_eq_none.2 hn, hr]

example : (∀ p ∈ [(1, 2), (2, 1)], p.1 ∈ (⟨["a"], [(1, fun _ => 5), (2, fun _ => 7)]⟩ : Frame ℕ String ℕ).index) ∧
    lastTarget [(1, 2), (2, 1)] 1 = some 2 := by decide

/-- C15: an unknown second element raises `KeyError` (as soon as one column is selected). -/
theorem C15_unknown_source (nan : α) (d : Frame ι κ α) (remap : List (ι × ι))
    (columns : Option (List κ)) (hcol : ∀ cs, columns = some cs → ∀ c ∈ cs, c ∈ d.cols)
    (hne : columns.getD d.cols ≠ []) (h : ∃ p ∈ remap, p.2 ∉ d.index) :
    Raises (remapPositions nan d remap columns) .keyError := by
  have hc : ∀ c ∈ columns.getD d.cols, c ∈ d.cols := by
    cases columns with
    | none => simp
    | some cs => simpa using hcol cs rfl
  exact remap_keyError nan d _ hne hc remap h d

example : ∃ p ∈ [(1, 2), (2, 9)], p.2 ∉ (⟨["a"], [(1, fun _ => 5), (2, fun _ => 7)]⟩ : Frame ℕ String ℕ).index := by
  decide

/-- C15: an unknown first element does not raise; a row with that label is appended, holding the
source row in the selected columns and NaN elsewhere. -/
theorem C15_unknown_target (nan : α) (d : Frame ι κ α) (a b : ι) (cs : List κ) (hne : cs ≠ [])
    (hc : ∀ c ∈ cs, c ∈ d.cols) (ha : a ∉ d.index) (hb : b ∈ d.index) :
    ∃ d', remapPositions nan d [(a, b)] (some cs) = .ok d' ∧
      (∀ c ∈ d.cols, cell d' a c = if c ∈ cs then cell d b c else some nan) ∧
      (∀ l ∈ d.index, ∀ c, cell d' l c = cell d l c) := by
  obtain ⟨d', e1, e2, -, e4⟩ := remap_main nan d cs hne hc [(a, b)] (by simpa using hb) d
  refine ⟨d', e1, ?_, ?_⟩
  · intro c hcc
    have hnone : d.row? a = none := Frame.row?_eq_none.2 ha
    obtain ⟨r, hr⟩ := Frame.row?_isSome hb
    have hl : lastTarget [(a, b)] a = some b := by simp [lastTarget]
    rw [cell_eq, cell_eq, e2, e4 a, hl, hr]
    simp only [hcc, hnone, if_true]
    split_ifs <;> simp [*]
  · intro l hl c
    have hla : l ≠ a := fun h => ha (h ▸ hl)
    have hn : lastTarget [(a, b)] l = none := by rw [lastTarget_eq_none]; simpa using hla
    rw [cell_eq, cell_eq, e2, e4 l, hn]

example : (3 : ℕ) ∉ (⟨["a", "b"], [(1, fun _ => 5), (2, fun _ => 7)]⟩ : Frame ℕ String ℕ).index := by decide

/-! ## C16 -/

/-- Row order seen through the remap. -/
private theorem bij_fst {remap : List (ι × ι)} {idx : List ι} (hn : idx.Nodup)
    (hb : IsBijection remap idx) : (remap.map Prod.fst).Nodup ∧ (remap.map Prod.snd).Nodup :=
  ⟨hb.1.nodup_iff.2 hn, hb.2.nodup_iff.2 hn⟩

private theorem bij_map {remap : List (ι × ι)} {idx : List ι} (hn : idx.Nodup)
    (hb : IsBijection remap idx) :
    (idx.map fun l => (lastTarget remap l).getD l).Perm idx := by
  have h1 : (idx.map fun l => (lastTarget remap l).getD l).Perm
      ((remap.map Prod.fst).map fun l => (lastTarget remap l).getD l) := (hb.1.map _).symm
  refine h1.trans ?_
  have : (remap.map Prod.fst).map (fun l => (lastTarget remap l).getD l) = remap.map Prod.snd := by
    rw [List.map_map]
    apply List.map_congr_left
    intro p hp
    simp [lastTarget_of_mem (bij_fst hn hb).1 (show (p.1, p.2) ∈ remap from hp)]
  rw [this]
  exact hb.2

/-- C16: with a one-to-one remap of all labels the rows of the output are a permutation of the rows
of the input. -/
theorem C16_rows_permuted (nan : α) (d : Frame ι κ α) (hn : d.index.Nodup) (remap : List (ι × ι))
    (hb : IsBijection remap d.index) :
    ∃ d', remapPositions nan d remap none = .ok d' ∧ d'.index = d.index ∧ d'.cols = d.cols ∧
      (rowValues d').Perm (rowValues d) := by
  obtain ⟨d', e1, e2, e3, e4⟩ := remap_ok nan d remap none (by simp)
    (fun p hp => hb.1.mem_iff.1 (List.mem_map_of_mem hp))
    (fun p hp => hb.2.mem_iff.1 (List.mem_map_of_mem hp))
  refine ⟨d', e1, e2, e3, ?_⟩
  have hr := rows_eq_map nan d hn
  have hr' := rows_eq_map nan d' (e2 ▸ hn)
  have L : rowValues d' = (d.index.map fun l => (lastTarget remap l).getD l).map
      (fun s => d.cols.map ((d.row? s).getD fun _ => nan)) := by
    unfold rowValues
    rw [hr', e2, e3, List.map_map, List.map_map]
    apply List.map_congr_left
    intro l hl
    simp only [Function.comp_apply, e4 l hl, Option.getD_some, Option.getD_none]
    apply List.map_congr_left
    intro c hc
    simp [hc]
  have R : rowValues d = d.index.map (fun s => d.cols.map ((d.row? s).getD fun _ => nan)) := by
    unfold rowValues
    conv_lhs => rw [hr]
    rw [List.map_map]; rfl
  rw [L, R]
  exact (bij_map hn hb).map _

example : IsBijection [(1, 2), (2, 3), (3, 1)] [1, 2, 3] := by unfold IsBijection; decide

/-- C16: remapping with the inverse pairs restores the table exactly, whatever columns are
selected. -/
theorem C16_inverse (nan : α) (d : Frame ι κ α) (hn : d.index.Nodup) (remap : List (ι × ι))
    (columns : Option (List κ)) (hcol : ∀ cs, columns = some cs → ∀ c ∈ cs, c ∈ d.cols)
    (hb : IsBijection remap d.index) :
    ∃ d', remapPositions nan d remap columns = .ok d' ∧
      remapPositions nan d' (remap.map Prod.swap) columns = .ok d := by
  have hc : ∀ c ∈ columns.getD d.cols, c ∈ d.cols := by
    cases columns with
    | none => simp
    | some cs => simpa using hcol cs rfl
  have m1 : ∀ p ∈ remap, p.1 ∈ d.index := fun p hp => hb.1.mem_iff.1 (List.mem_map_of_mem hp)
  have m2 : ∀ p ∈ remap, p.2 ∈ d.index := fun p hp => hb.2.mem_iff.1 (List.mem_map_of_mem hp)
  obtain ⟨d', e1, e2, e3, e4⟩ := remap_ok nan d remap columns hc m1 m2
  obtain ⟨d'', f1, f2, f3, f4⟩ := remap_ok nan d' (remap.map Prod.swap) columns (by rwa [e3])
    (by rw [e2]; intro p hp
        obtain ⟨q, hq, rfl⟩ := List.mem_map.1 hp
        exact m2 q hq)
    (by rw [e2]; intro p hp
        obtain ⟨q, hq, rfl⟩ := List.mem_map.1 hp
        exact m1 q hq)
  refine ⟨d', e1, ?_⟩
  rw [f1]
  congr 1
  refine frame_ext hn (f2.trans e2) (f3.trans e3) ?_
  intro l hl
  rw [f4 l (e2 ▸ hl), e3]
  obtain ⟨q, hq, hql⟩ := List.mem_map.1 (hb.2.mem_iff.2 hl)
  have hs : lastTarget (remap.map Prod.swap) l = some q.1 := by
    apply lastTarget_of_mem
    · rw [List.map_map]
      exact (bij_fst hn hb).2
    · rw [List.mem_map]; exact ⟨q, hq, by simp [Prod.swap, hql]⟩
  have hs' : lastTarget remap q.1 = some l := by
    rw [← hql]; exact lastTarget_of_mem (bij_fst hn hb).1 hq
  obtain ⟨r, hr⟩ := Frame.row?_isSome hl
  rw [hr, hs]
  congr 1
  funext c
  rw [Option.getD_some, e4 q.1 (m1 q hq), e4 l hl]
  simp only [Option.getD_some, hs', hr]
  split_ifs <;> rfl

/-- C16: the identity remap changes nothing. -/
theorem C16_identity (nan : α) (d : Frame ι κ α) (hn : d.index.Nodup)
    (columns : Option (List κ)) (hcol : ∀ cs, columns = some cs → ∀ c ∈ cs, c ∈ d.cols) :
    remapPositions nan d (d.index.map fun l => (l, l)) columns = .ok d := by
  have hc : ∀ c ∈ columns.getD d.cols, c ∈ d.cols := by
    cases columns with
    | none => simp
    | some cs => simpa using hcol cs rfl
  obtain ⟨d', e1, e2, e3, e4⟩ := remap_ok nan d (d.index.map fun l => (l, l)) columns hc
    (by simp) (by simp)
  rw [e1]
  congr 1
  refine frame_ext hn e2 e3 ?_
  intro l hl
  obtain ⟨r, hr⟩ := Frame.row?_isSome hl
  have : (lastTarget (d.index.map fun l => (l, l)) l).getD l = l := by
    cases h : lastTarget (d.index.map fun l => (l, l)) l with
    | none => rfl
    | some v =>
      have := lastTarget_mem h
      simp at this
      simp [this.2]
  rw [e4 l hl, this, hr]
  simp

end

/-! ## C17 -/

section
variable [LinearOrder ι]

/-- C17: remapping twice is remapping once with the cascaded remap. -/
theorem C17_cascade_law (nan : α) (d : Frame ι κ α) (hn : d.index.Nodup) (r1 r2 : List (ι × ι))
    (columns : Option (List κ)) (hcol : ∀ cs, columns = some cs → ∀ c ∈ cs, c ∈ d.cols)
    (hk : ∀ k, k ∈ r1.map Prod.fst ↔ k ∈ r2.map Prod.fst)
    (hk1 : ∀ p ∈ r1, p.1 ∈ d.index ∧ p.2 ∈ d.index)
    (hk2 : ∀ p ∈ r2, p.2 ∈ r1.map Prod.fst) :
    ∃ d1 r12 d12, remapPositions nan d r1 columns = .ok d1 ∧ cascadeRemap r1 r2 = .ok r12 ∧
      remapPositions nan d1 r2 columns = .ok d12 ∧ remapPositions nan d r12 columns = .ok d12 := by
  have hc : ∀ c ∈ columns.getD d.cols, c ∈ d.cols := by
    cases columns with
    | none => simp
    | some cs => simpa using hcol cs rfl
  obtain ⟨d1, e1, e2, e3, e4⟩ := remap_ok nan d r1 columns hc
    (fun p hp => (hk1 p hp).1) (fun p hp => (hk1 p hp).2)
  have k1 : ∀ k ∈ r1.map Prod.fst, k ∈ d.index := by
    intro k h; obtain ⟨p, hp, rfl⟩ := List.mem_map.1 h; exact (hk1 p hp).1
  have hcas : ∀ k ∈ r1.map Prod.fst, ∃ b, lastTarget r2 k = some b ∧ b ∈ r1.map Prod.fst := by
    intro k h
    cases hb : lastTarget r2 k with
    | none => exact absurd ((hk k).1 h) (lastTarget_eq_none.1 hb)
    | some b => exact ⟨b, rfl, hk2 _ (lastTarget_mem hb)⟩
  obtain ⟨r12, g1, g2, g3, g4⟩ := cascade_ok r1 r2 hcas
  obtain ⟨d12, f1, f2, f3, f4⟩ := remap_ok nan d1 r2 columns (by rwa [e3])
    (fun p hp => by rw [e2]; exact k1 _ ((hk _).2 (List.mem_map_of_mem hp)))
    (fun p hp => by rw [e2]; exact k1 _ (hk2 p hp))
  have hr12 : ∀ p ∈ r12, p.1 ∈ d.index ∧ p.2 ∈ d.index := by
    intro p hp
    have hkm : p.1 ∈ r1.map Prod.fst := (g3 _).1 (List.mem_map_of_mem hp)
    obtain ⟨b, hb, _⟩ := hcas p.1 hkm
    have hv := g4 p.1 b hkm hb
    rw [lastTarget_of_mem (g2.imp ne_of_lt) (show (p.1, p.2) ∈ r12 from hp)] at hv
    exact ⟨k1 _ hkm, (hk1 _ (lastTarget_mem hv.symm)).2⟩
  obtain ⟨d', h1, h2, h3, h4⟩ := remap_ok nan d r12 columns hc
    (fun p hp => (hr12 p hp).1) (fun p hp => (hr12 p hp).2)
  refine ⟨d1, r12, d12, e1, g1, f1, ?_⟩
  rw [h1]
  congr 1
  refine frame_ext (by rw [f2, e2]; exact hn) (by rw [f2, e2, h2]) (by rw [f3, e3, h3]) ?_
  intro l hl
  rw [f2, e2] at hl
  rw [f4 l (e2 ▸ hl), h4 l hl, e3]
  congr 1
  funext c
  by_cases hl1 : l ∈ r1.map Prod.fst
  · obtain ⟨b, hb, hb'⟩ := hcas l hl1
    rw [g4 l b hl1 hb, hb, Option.getD_some, e4 b (k1 b hb'), e4 l hl]
    cases hab : lastTarget r1 b with
    | none => exact absurd hb' (lastTarget_eq_none.1 hab)
    | some a =>
      simp only [Option.getD_some]
      split_ifs <;> rfl
  · have hl2 : lastTarget r2 l = none := lastTarget_eq_none.2 (fun h => hl1 ((hk l).2 h))
    have hl12 : lastTarget r12 l = none := lastTarget_eq_none.2 (fun h => hl1 ((g3 l).1 h))
    have hl1' : lastTarget r1 l = none := lastTarget_eq_none.2 hl1
    rw [hl2, hl12, Option.getD_none, e4 l hl, hl1']
    simp only [Option.getD_some, Option.getD_none]
    split_ifs <;> rfl

example : (∀ k, k ∈ [(1, 2), (2, 2)].map Prod.fst ↔ k ∈ [(2, 1), (1, 2)].map Prod.fst) ∧
    (∀ p ∈ [(2, 1), (1, 2)], p.2 ∈ [(1, 2), (2, 2)].map Prod.fst) := by
  constructor
  · intro k; simp; tauto
  · decide

/-- C17: the pairs of the cascaded remap. -/
theorem C17_cascade_pairs (r1 r2 : List (ι × ι))
    (h : ∀ k ∈ r1.map Prod.fst, ∃ b, lastTarget r2 k = some b ∧ b ∈ r1.map Prod.fst) :
    ∃ out, cascadeRemap r1 r2 = .ok out ∧ (out.map Prod.fst).Pairwise (· < ·) ∧
      ∀ k v, (k, v) ∈ out ↔ k ∈ r1.map Prod.fst ∧
        ∃ b, lastTarget r2 k = some b ∧ lastTarget r1 b = some v := by
  obtain ⟨out, e1, e2, e3, e4⟩ := cascade_ok r1 r2 h
  refine ⟨out, e1, e2, ?_⟩
  have hnd : (out.map Prod.fst).Nodup := e2.imp ne_of_lt
  intro k v
  constructor
  · intro hm
    have hk : k ∈ r1.map Prod.fst := (e3 k).1 (List.mem_map_of_mem hm)
    obtain ⟨b, hb, _⟩ := h k hk
    exact ⟨hk, b, hb, by rw [← e4 k b hk hb]; exact lastTarget_of_mem hnd hm⟩
  · rintro ⟨hk, b, hb, hv⟩
    rw [← e4 k b hk hb] at hv
    exact lastTarget_mem hv

example : ∀ k ∈ [(1, 2), (2, 3), (3, 1)].map Prod.fst,
    ∃ b, lastTarget [(1, 3), (2, 1), (3, 2)] k = some b ∧ b ∈ [(1, 2), (2, 3), (3, 1)].map Prod.fst := by
  intro k hk
  simp at hk
  rcases hk with rfl | rfl | rfl
  exacts [⟨3, by decide⟩, ⟨1, by decide⟩, ⟨2, by decide⟩]

/-- C17: `KeyError` when a key of `r1` is missing in `r2`, or `r2` sends it outside `r1`. -/
theorem C17_cascade_error (r1 r2 : List (ι × ι))
    (h : ∃ k ∈ r1.map Prod.fst, ∀ b, lastTarget r2 k = some b → b ∉ r1.map Prod.fst) :
    Raises (cascadeRemap r1 r2) .keyError := cascade_error r1 r2 h

example : ∃ k ∈ [(1, 2), (2, 1)].map Prod.fst,
    ∀ b, lastTarget [(1, 2)] k = some b → b ∉ [(1, 2), (2, 1)].map Prod.fst := ⟨2, by decide, by decide⟩

/-- C17: cascading is associative. -/
theorem C17_assoc (r1 r2 r3 : List (ι × ι))
    (h12 : ∀ k, k ∈ r1.map Prod.fst ↔ k ∈ r2.map Prod.fst)
    (h13 : ∀ k, k ∈ r1.map Prod.fst ↔ k ∈ r3.map Prod.fst)
    (h2 : ∀ p ∈ r2, p.2 ∈ r1.map Prod.fst) (h3 : ∀ p ∈ r3, p.2 ∈ r1.map Prod.fst) :
    ∃ c12 c23 c, cascadeRemap r1 r2 = .ok c12 ∧ cascadeRemap r2 r3 = .ok c23 ∧
      cascadeRemap c12 r3 = .ok c ∧ cascadeRemap r1 c23 = .ok c := by
  have get : ∀ r : List (ι × ι), (∀ k, k ∈ r1.map Prod.fst ↔ k ∈ r.map Prod.fst) →
      (∀ p ∈ r, p.2 ∈ r1.map Prod.fst) → ∀ k ∈ r1.map Prod.fst,
      ∃ b, lastTarget r k = some b ∧ b ∈ r1.map Prod.fst := by
    intro r hr hr' k hk
    cases hb : lastTarget r k with
    | none => exact absurd ((hr k).1 hk) (lastTarget_eq_none.1 hb)
    | some b => exact ⟨b, rfl, hr' _ (lastTarget_mem hb)⟩
  have g2 := get r2 h12 h2
  have g3 := get r3 h13 h3
  obtain ⟨c12, a1, a2, a3, a4⟩ := cascade_ok r1 r2 g2
  obtain ⟨c23, b1, b2, b3, b4⟩ := cascade_ok r2 r3 (by
    intro k hk
    obtain ⟨b, hb, hb'⟩ := g3 k ((h12 k).2 hk)
    exact ⟨b, hb, (h12 b).1 hb'⟩)
  obtain ⟨c, x1, x2, x3, x4⟩ := cascade_ok c12 r3 (by
    intro k hk
    obtain ⟨b, hb, hb'⟩ := g3 k ((a3 k).1 hk)
    exact ⟨b, hb, (a3 b).2 hb'⟩)
  have hc23 : ∀ k ∈ r1.map Prod.fst, ∃ s b, lastTarget r3 k = some s ∧ s ∈ r1.map Prod.fst ∧
      lastTarget r2 s = some b ∧ lastTarget c23 k = some b ∧ b ∈ r1.map Prod.fst := by
    intro k hk
    obtain ⟨s, hs, hs'⟩ := g3 k hk
    obtain ⟨b, hb, hb'⟩ := g2 s hs'
    exact ⟨s, b, hs, hs', hb, by rw [b4 k s ((h12 k).1 hk) hs]; exact hb, hb'⟩
  obtain ⟨c', y1, y2, y3, y4⟩ := cascade_ok r1 c23 (by
    intro k hk
    obtain ⟨s, b, -, -, -, hb, hb'⟩ := hc23 k hk
    exact ⟨b, hb, hb'⟩)
  refine ⟨c12, c23, c, a1, b1, x1, ?_⟩
  rw [y1]
  congr 1
  symm
  apply sorted_pairs_ext x2 y2
  · intro k; rw [x3, a3, y3]
  · intro k hk
    rw [x3, a3] at hk
    obtain ⟨s, b, hs, hs', hb, hb', _⟩ := hc23 k hk
    rw [x4 k s ((a3 k).2 hk) hs, y4 k b hk hb', a4 s b hs' hb]

example : (∀ p ∈ [(1, 3), (2, 1), (3, 2)], p.2 ∈ [(1, 2), (2, 3), (3, 1)].map Prod.fst) := by decide

/-- C17: the identity remap is a two-sided unit on sorted remaps with one entry per key. -/
theorem C17_unit (r : List (ι × ι)) (hs : (r.map Prod.fst).Pairwise (· < ·)) :
    cascadeRemap r (r.map fun p => (p.1, p.1)) = .ok r ∧
      ((∀ p ∈ r, p.2 ∈ r.map Prod.fst) → cascadeRemap (r.map fun p => (p.1, p.1)) r = .ok r) := by
  have hn : (r.map Prod.fst).Nodup := hs.imp ne_of_lt
  have hfst : (r.map fun p => (p.1, p.1)).map Prod.fst = r.map Prod.fst := by
    simp [Function.comp_def]
  have hid : ∀ k ∈ r.map Prod.fst, lastTarget (r.map fun p => (p.1, p.1)) k = some k := by
    intro k hk
    apply lastTarget_of_mem (by rw [hfst]; exact hn)
    obtain ⟨p, hp, rfl⟩ := List.mem_map.1 hk
    exact List.mem_map.2 ⟨p, hp, rfl⟩
  constructor
  · obtain ⟨o, e1, e2, e3, e4⟩ := cascade_ok r (r.map fun p => (p.1, p.1))
      (fun k hk => ⟨k, hid k hk, hk⟩)
    rw [e1]
    congr 1
    apply sorted_pairs_ext e2 hs e3
    intro k hk
    rw [e3] at hk
    exact e4 k k hk (hid k hk)
  · intro hv
    have hb : ∀ k ∈ r.map Prod.fst, ∃ b, lastTarget r k = some b ∧ b ∈ r.map Prod.fst := by
      intro k hk
      obtain ⟨p, hp, rfl⟩ := List.mem_map.1 hk
      exact ⟨p.2, lastTarget_of_mem hn hp, hv p hp⟩
    obtain ⟨o, e1, e2, e3, e4⟩ := cascade_ok (r.map fun p => (p.1, p.1)) r
      (by rw [hfst]; exact hb)
    rw [hfst] at e3 e4
    rw [e1]
    congr 1
    apply sorted_pairs_ext e2 hs e3
    intro k hk
    rw [e3] at hk
    obtain ⟨b, hb1, hb2⟩ := hb k hk
    rw [e4 k b hk hb1, hid b hb2, hb1]

example : ([(1, 2), (2, 3), (3, 1)].map Prod.fst).Pairwise (· < ·) ∧
    ∀ p ∈ [(1, 2), (2, 3), (3, 1)], p.2 ∈ [(1, 2), (2, 3), (3, 1)].map Prod.fst := by decide

end
end SST.Props.Field
