import Verif.Proofs.Assign
import Mathlib.Tactic.NormNum

/-!
# Properties C18-C21, C85, C86: `assign_positions` of `field.py`

Specifications: `Spec/Remap.lean`, `Spec/Assign.lean`.
-/

namespace SST.Props.Assign
open SST SST.Field SST.Spec

variable {ι κ : Type} [LinearOrder ι] [DecidableEq κ]

/-- The hypothesis on the external solver is satisfiable. -/
example : ∃ lsa : LSA, IsLSA lsa := exists_lsa

theorem noNaN {pred : List (ι × PredRow)} (h : ∀ p ∈ pred, p.2.hasNaN = false) :
    ¬ (pred.any fun r => r.2.hasNaN) = true := by
  rw [List.any_eq_true]
  rintro ⟨p, hp, hN⟩
  rw [h p hp] at hN; cases hN

private theorem lift (nan : ℝ) (original : Frame ι κ ℝ) (c0 c1 : κ) (rest : List κ)
    (hcols : original.cols = c0 :: c1 :: rest) (lsa : LSA) (pred : List (ι × PredRow))
    (remap : List (ι × ι)) (h : assignRemap lsa (coords c0 c1 original) pred = .ok remap)
    (hb : IsBijection remap original.index) :
    ∃ out, assignPositions lsa nan original pred = .ok (remap, out) ∧
      remapPositions nan original remap none = .ok out := by
  obtain ⟨out, e1, -⟩ := remap_ok nan original remap none (by simp)
    (fun p hp => hb.1.mem_iff.1 (List.mem_map_of_mem hp))
    (fun p hp => hb.2.mem_iff.1 (List.mem_map_of_mem hp))
  refine ⟨out, ?_, e1⟩
  unfold assignPositions
  rw [hcols]
  unfold coords at h
  simp only [h]
  show (remapPositions nan original remap none >>= _) = _
  rw [e1]
  rfl

theorem coords_fst (c0 c1 : κ) (f : Frame ι κ ℝ) : (coords c0 c1 f).map Prod.fst = f.index := by
  simp [coords, Frame.index, Function.comp_def]

/-! ## C18 -/

/-- C18: for NaN-free predictions with the labels of the original (same order), the result is a
bijection of the labels, sorted by its first element, of least total distance among all bijections,
and the returned table is the original remapped with it. -/
theorem C18_optimal_bijection (lsa : LSA) (hl : IsLSA lsa) (nan : ℝ) (original : Frame ι κ ℝ)
    (hn : original.index.Nodup) (c0 c1 : κ) (rest : List κ)
    (hcols : original.cols = c0 :: c1 :: rest) (pred : List (ι × PredRow))
    (hlab : pred.map Prod.fst = original.index) (hN : ∀ p ∈ pred, p.2.hasNaN = false) :
    ∃ remap out, assignPositions lsa nan original pred = .ok (remap, out) ∧
      IsBijection remap original.index ∧ (remap.map Prod.fst).Pairwise (· < ·) ∧
      (∀ remap', IsBijection remap' original.index →
        totalDist (coords c0 c1 original) (predCoords pred) remap ≤
        totalDist (coords c0 c1 original) (predCoords pred) remap') ∧
      remapPositions nan original remap none = .ok out := by
  have hf := coords_fst c0 c1 original
  obtain ⟨remap, e1, e2, e3, e4⟩ := core_ok lsa hl (coords c0 c1 original) pred (hf ▸ hn)
    (by rw [hf]; exact hlab)
  rw [hf] at e3 e4
  have hr : assignRemap lsa (coords c0 c1 original) pred = .ok remap := by
    unfold assignRemap
    rw [if_neg (noNaN hN)]; exact e1
  obtain ⟨out, o1, o2⟩ := lift nan original c0 c1 rest hcols lsa pred remap hr e3
  exact ⟨remap, out, o1, e3, e2, e4, o2⟩

example : ([(1, ⟨some 0, some 3, []⟩), (2, ⟨some 1, some 1, []⟩)] : List (ℕ × PredRow)).map Prod.fst =
    (⟨["E", "N"], [(1, fun _ => 5), (2, fun _ => 7)]⟩ : Frame ℕ String ℝ).index := rfl

/-! ## C19 -/

/-- C19: with some NaN predictions (same labels, any row order) every entity with a NaN prediction
is mapped to itself, the others are permuted among themselves with least total distance, and the
remap is a bijection listed in the original order. -/
theorem C19_nan_fixed (lsa : LSA) (hl : IsLSA lsa) (nan : ℝ) (original : Frame ι κ ℝ)
    (hn : original.index.Nodup) (c0 c1 : κ) (rest : List κ)
    (hcols : original.cols = c0 :: c1 :: rest) (pred : List (ι × PredRow))
    (hlab : (pred.map Prod.fst).Perm original.index) (hN : ∃ p ∈ pred, p.2.hasNaN = true) :
    ∃ remap out, assignPositions lsa nan original pred = .ok (remap, out) ∧
      remap.map Prod.fst = original.index ∧ IsBijection remap original.index ∧
      (∀ p ∈ pred, p.2.hasNaN = true → (p.1, p.1) ∈ remap) ∧
      (let known := (pred.filter fun r => !r.2.hasNaN).map Prod.fst
       let moved := remap.filter fun p => p.1 ∈ known
       IsBijection moved known ∧
       ∀ remap', IsBijection remap' known →
        totalDist (coords c0 c1 original) (predCoords pred) moved ≤
        totalDist (coords c0 c1 original) (predCoords pred) remap') ∧
      remapPositions nan original remap none = .ok out := by
  have hf := coords_fst c0 c1 original
  obtain ⟨remap, e1, e2, e3, e4, e5, e6⟩ := nan_branch lsa hl (coords c0 c1 original) (hf ▸ hn) pred
    (hf ▸ hlab) hN
  rw [hf] at e2 e3
  obtain ⟨out, o1, o2⟩ := lift nan original c0 c1 rest hcols lsa pred remap e1 e3
  exact ⟨remap, out, o1, e2, e3, e4, ⟨e5, e6⟩, o2⟩

example : ∃ p ∈ ([(2, ⟨none, some 3, []⟩), (1, ⟨some 1, some 1, []⟩)] : List (ℕ × PredRow)),
    p.2.hasNaN = true := ⟨_, List.mem_cons_self, rfl⟩

/-! ## C20 -/

theorem exact_of_zero {orig pred : List (ι × Vec)} {truth remap : List (ι × ι)} {idx : List ι}
    (hn : idx.Nodup) (hd : ∀ k ∈ idx, ∀ l ∈ idx, posOf orig k = posOf orig l → k = l)
    (ht : IsBijection truth idx) (hb : IsBijection remap idx)
    (hpos : ∀ p ∈ truth, posOf pred p.1 = posOf orig p.2)
    (hle : totalDist orig pred remap ≤ totalDist orig pred truth) :
    ∀ p, p ∈ remap ↔ p ∈ truth := by
  have h0 : totalDist orig pred truth = 0 := by
    unfold totalDist
    apply List.sum_eq_zero
    intro x hx
    obtain ⟨p, hp, rfl⟩ := List.mem_map.1 hx
    rw [hpos p hp]; simp [pdist]
  have hz : ∀ p ∈ remap, pdist (posOf pred p.1) (posOf orig p.2) = 0 := by
    intro p hp
    have h1 : pdist (posOf pred p.1) (posOf orig p.2) ≤ totalDist orig pred remap :=
      List.single_le_sum (by
        intro x hx; obtain ⟨q, hq, rfl⟩ := List.mem_map.1 hx; exact pdist_nonneg _ _) _
        (List.mem_map.2 ⟨p, hp, rfl⟩)
    have := pdist_nonneg (posOf pred p.1) (posOf orig p.2)
    linarith
  have sub : ∀ p ∈ remap, p ∈ truth := by
    intro p hp
    have hk : p.1 ∈ truth.map Prod.fst := ht.1.mem_iff.2 (hb.1.mem_iff.1 (List.mem_map_of_mem hp))
    obtain ⟨q, hq, hqp⟩ := List.mem_map.1 hk
    have e := pdist_eq_zero (hz p hp)
    rw [← hqp, hpos q hq] at e
    have := hd q.2 (ht.2.mem_iff.1 (List.mem_map_of_mem hq)) p.2
      (hb.2.mem_iff.1 (List.mem_map_of_mem hp)) e
    have : p = q := Prod.ext hqp.symm this.symm
    rwa [this]
  intro p
  refine ⟨sub p, ?_⟩
  intro hp
  have hk : p.1 ∈ remap.map Prod.fst := hb.1.mem_iff.2 (ht.1.mem_iff.1 (List.mem_map_of_mem hp))
  obtain ⟨q, hq, hqp⟩ := List.mem_map.1 hk
  have := List.inj_on_of_nodup_map (ht.1.nodup_iff.2 hn) (sub q hq) hp hqp
  rwa [← this]

/-- C20: if every entity's prediction is exactly the original position of its true location
(`truth`, a bijection of the labels) and original positions are pairwise distinct, the returned
remap consists of exactly the pairs of `truth`, and the coordinates in the returned table are the
predictions. -/
theorem C20_exact_recovery (lsa : LSA) (hl : IsLSA lsa) (nan : ℝ) (original : Frame ι κ ℝ)
    (hn : original.index.Nodup) (c0 c1 : κ) (rest : List κ)
    (hcols : original.cols = c0 :: c1 :: rest) (pred : List (ι × PredRow))
    (hlab : pred.map Prod.fst = original.index) (hN : ∀ p ∈ pred, p.2.hasNaN = false)
    (hdist : ∀ k ∈ original.index, ∀ l ∈ original.index,
      posOf (coords c0 c1 original) k = posOf (coords c0 c1 original) l → k = l)
    (truth : List (ι × ι)) (ht : IsBijection truth original.index)
    (hpos : ∀ p ∈ truth, posOf (predCoords pred) p.1 = posOf (coords c0 c1 original) p.2) :
    ∃ remap out, assignPositions lsa nan original pred = .ok (remap, out) ∧
      (∀ p, p ∈ remap ↔ p ∈ truth) ∧ (remap.map Prod.fst).Pairwise (· < ·) ∧
      ∀ p ∈ pred, cell out p.1 c0 = p.2.e ∧ cell out p.1 c1 = p.2.n := by
  obtain ⟨remap, out, h1, h2, h3, h4, h5⟩ :=
    C18_optimal_bijection lsa hl nan original hn c0 c1 rest hcols pred hlab hN
  have hex := exact_of_zero hn hdist ht h2 hpos (h4 truth ht)
  refine ⟨remap, out, h1, hex, h3, ?_⟩
  obtain ⟨out', e1, e2, e3, e4⟩ := remap_ok nan original remap none (by simp)
    (fun p hp => h2.1.mem_iff.1 (List.mem_map_of_mem hp))
    (fun p hp => h2.2.mem_iff.1 (List.mem_map_of_mem hp))
  rw [h5] at e1
  obtain rfl := Except.ok.inj e1
  intro p hp
  have hpi : p.1 ∈ original.index := hlab ▸ List.mem_map_of_mem hp
  obtain ⟨q, hq, hqp⟩ := List.mem_map.1 (h2.1.mem_iff.2 hpi)
  have hlt : lastTarget remap p.1 = some q.2 := by
    rw [← hqp]; exact lastTarget_of_mem (h3.imp ne_of_lt) hq
  have hqi : q.2 ∈ original.index := h2.2.mem_iff.1 (List.mem_map_of_mem hq)
  obtain ⟨r, hr⟩ := Frame.row?_isSome hqi
  have hrow := e4 p.1 hpi
  have hposq := hpos q ((hex q).1 hq)
  have hnp : ((predCoords pred).map Prod.fst).Nodup := by
    have : (predCoords pred).map Prod.fst = pred.map Prod.fst := by
      simp [predCoords, Function.comp_def]
    rw [this, hlab]; exact hn
  have hpp : posOf (predCoords pred) p.1 = (p.2.e.getD 0, p.2.n.getD 0) :=
    posOf_mem hnp (p := (p.1, (p.2.e.getD 0, p.2.n.getD 0))) (List.mem_map.2 ⟨p, hp, rfl⟩)
  have hoq : posOf (coords c0 c1 original) q.2 = (r c0, r c1) := by
    have : (q.2, r) ∈ original.rows := dictGet?_mem hr
    exact posOf_mem (by rw [coords_fst]; exact hn) (p := (q.2, (r c0, r c1)))
      (List.mem_map.2 ⟨_, this, rfl⟩)
  rw [hqp, hpp, hoq] at hposq
  have hNp := hN p hp
  simp only [PredRow.hasNaN, Bool.or_eq_false_iff, Option.isNone_eq_false_iff] at hNp
  obtain ⟨⟨he, hn'⟩, -⟩ := hNp
  obtain ⟨e, he⟩ := Option.isSome_iff_exists.1 he
  obtain ⟨n', hn'⟩ := Option.isSome_iff_exists.1 hn'
  rw [he, hn'] at hposq
  simp only [Option.getD_some, Prod.mk.injEq] at hposq
  rw [cell_eq, cell_eq, e3, hrow, hcols, he, hn', hlt]
  simp [hr, hposq.1, hposq.2]

example : IsBijection [(1, 2), (2, 1)] [1, 2] ∧
    (∀ p ∈ [(1, 2), (2, 1)], posOf (predCoords [(1, ⟨some 1, some 0, []⟩), (2, ⟨some 0, some 0, []⟩)]) p.1 =
      posOf [(1, ((0 : ℝ), (0 : ℝ))), (2, (1, 0))] p.2) := by
  refine ⟨by unfold IsBijection; decide, ?_⟩
  simp [posOf, predCoords]

/-! ## C21 -/

private def exOrig : List (ℕ × Vec) := [(1, (0, 0)), (2, (1, 0))]
private def exPred : List (ℕ × PredRow) := [(1, ⟨some 0, some 0, []⟩), (2, ⟨some 1, some 0, []⟩)]

private theorem core_truth (lsa : LSA) (hl : IsLSA lsa) (orig : List (ι × Vec))
    (rows : List (ι × PredRow)) (hn : (orig.map Prod.fst).Nodup)
    (hlab : rows.map Prod.fst = orig.map Prod.fst)
    (hd : ∀ k ∈ orig.map Prod.fst, ∀ l ∈ orig.map Prod.fst, posOf orig k = posOf orig l → k = l)
    (truth : List (ι × ι)) (ht : IsBijection truth (orig.map Prod.fst))
    (hpos : ∀ p ∈ truth, posOf (predCoords rows) p.1 = posOf orig p.2) :
    ∃ remap, assignCore lsa orig (rows.map Prod.snd) = .ok remap ∧ ∀ p, p ∈ remap ↔ p ∈ truth := by
  obtain ⟨remap, e1, -, e3, e4⟩ := core_ok lsa hl orig rows hn hlab
  exact ⟨remap, e1, exact_of_zero hn hd ht e3 hpos (e4 truth ht)⟩

/-- C21 violated: in the NaN-free branch the prediction labels are ignored.  Two entities with exact
predictions at their own positions are left in place when the rows of `predicted_pos` are in the
original order, but are swapped when the very same rows are listed in the other order. -/
theorem C21_violated_label_order (lsa : LSA) (hl : IsLSA lsa) :
    (∃ remap, assignRemap lsa exOrig exPred = .ok remap ∧ (1, 1) ∈ remap ∧ (2, 2) ∈ remap) ∧
    (∃ remap, assignRemap lsa exOrig exPred.reverse = .ok remap ∧ (1, 2) ∈ remap ∧ (2, 1) ∈ remap) := by
  have hn : (exOrig.map Prod.fst).Nodup := by simp [exOrig]
  have hd : ∀ k ∈ exOrig.map Prod.fst, ∀ l ∈ exOrig.map Prod.fst,
      posOf exOrig k = posOf exOrig l → k = l := by
    simp [exOrig, posOf]
  constructor
  · obtain ⟨remap, e1, e2⟩ := core_truth lsa hl exOrig exPred hn (by simp [exOrig, exPred]) hd
      [(1, 1), (2, 2)] (by unfold IsBijection exOrig; simp) (by
        simp [exOrig, exPred, posOf, predCoords])
    refine ⟨remap, ?_, (e2 _).2 (by simp), (e2 _).2 (by simp)⟩
    unfold assignRemap
    rw [if_neg (by simp [exPred, PredRow.hasNaN])]; exact e1
  · obtain ⟨remap, e1, e2⟩ := core_truth lsa hl exOrig
      [(1, ⟨some 1, some 0, []⟩), (2, ⟨some 0, some 0, []⟩)] hn (by simp [exOrig]) hd
      [(1, 2), (2, 1)] (by unfold IsBijection exOrig; simp; decide) (by
        simp [exOrig, posOf, predCoords])
    refine ⟨remap, ?_, (e2 _).2 (by simp), (e2 _).2 (by simp)⟩
    unfold assignRemap
    rw [if_neg (by simp [exPred, PredRow.hasNaN])]
    simpa [exPred] using e1

/-- C21 (partial): in the branch with NaN predictions the row order of the predictions does not
matter: the total distance of the moved entities is the same, and so is the remap itself whenever
the optimum is unique. Missing: the NaN-free branch, where the claim is false
(`C21_violated_label_order`). -/
theorem C21_nan_branch_order_partial (lsa : LSA) (hl : IsLSA lsa) (orig : List (ι × Vec))
    (hn : (orig.map Prod.fst).Nodup) (pred pred' : List (ι × PredRow))
    (hlab : (pred.map Prod.fst).Perm (orig.map Prod.fst)) (hp : pred'.Perm pred)
    (hN : ∃ p ∈ pred, p.2.hasNaN = true) :
    ∃ remap remap', assignRemap lsa orig pred = .ok remap ∧ assignRemap lsa orig pred' = .ok remap' ∧
      (let known := (pred.filter fun r => !r.2.hasNaN).map Prod.fst
       let D := fun r => totalDist orig (predCoords pred) (r.filter fun p => p.1 ∈ known)
       D remap = D remap' ∧
       ((∀ r r', IsBijection r known → IsBijection r' known →
          (∀ s, IsBijection s known →
            totalDist orig (predCoords pred) r ≤ totalDist orig (predCoords pred) s ∧
            totalDist orig (predCoords pred) r' ≤ totalDist orig (predCoords pred) s) → r.Perm r') →
        remap = remap')) := by
  have hnp : (pred.map Prod.fst).Nodup := hlab.nodup_iff.2 hn
  have hN' : ∃ p ∈ pred', p.2.hasNaN = true := by
    obtain ⟨p, h1, h2⟩ := hN; exact ⟨p, hp.mem_iff.2 h1, h2⟩
  obtain ⟨r, a1, a2, a3, a4, a5, a6⟩ := nan_branch lsa hl orig hn pred hlab hN
  obtain ⟨r', b1, b2, b3, b4, b5, b6⟩ := nan_branch lsa hl orig hn pred' ((hp.map _).trans hlab) hN'
  have hk : ((pred'.filter fun r => !r.2.hasNaN).map Prod.fst).Perm
      ((pred.filter fun r => !r.2.hasNaN).map Prod.fst) := (hp.filter _).map _
  set known := (pred.filter fun r => !r.2.hasNaN).map Prod.fst with hknown
  set known' := (pred'.filter fun r => !r.2.hasNaN).map Prod.fst with hknown'
  have hbij : ∀ s, IsBijection s known' ↔ IsBijection s known := by
    intro s
    exact ⟨fun h => ⟨h.1.trans hk, h.2.trans hk⟩, fun h => ⟨h.1.trans hk.symm, h.2.trans hk.symm⟩⟩
  have hfil : ∀ s : List (ι × ι), (s.filter fun p => p.1 ∈ known') = s.filter fun p => p.1 ∈ known := by
    intro s
    apply List.filter_congr
    intro p _
    simp only [hk.mem_iff]
  have hpos : ∀ s, totalDist orig (predCoords pred') s = totalDist orig (predCoords pred) s := by
    intro s
    unfold totalDist
    congr 1
    apply List.map_congr_left
    intro x _
    have : posOf (predCoords pred') x.1 = posOf (predCoords pred) x.1 := by
      have hn1 : ((predCoords pred).map Prod.fst).Nodup := by
        simpa [predCoords, Function.comp_def] using hnp
      have hpc : (predCoords pred').Perm (predCoords pred) := hp.map _
      have hn2 : ((predCoords pred').map Prod.fst).Nodup := (hpc.map _).nodup_iff.2 hn1
      by_cases hx : x.1 ∈ (predCoords pred).map Prod.fst
      · obtain ⟨q, hq, hqx⟩ := List.mem_map.1 hx
        rw [← hqx, posOf_mem hn1 hq, posOf_mem hn2 (hpc.mem_iff.2 hq)]
      · have hx' : x.1 ∉ (predCoords pred').map Prod.fst := by rwa [(hpc.map _).mem_iff]
        have h1 : dictGet? (predCoords pred) x.1 = none := dictGet?_eq_none.2 hx
        have h2 : dictGet? (predCoords pred') x.1 = none := dictGet?_eq_none.2 hx'
        unfold posOf
        unfold dictGet? at h1 h2
        rw [h1, h2]
    rw [this]
  rw [hfil] at b5 b6
  refine ⟨r, r', a1, b1, ?_, ?_⟩
  · apply le_antisymm
    · exact a6 _ ((hbij _).1 b5)
    · have := b6 _ ((hbij _).2 a5)
      rwa [hpos, hpos] at this
  · intro huniq
    have hperm := huniq _ _ a5 ((hbij _).1 b5) (fun s hs => ⟨a6 s hs, by
      have := b6 s ((hbij _).2 hs)
      rwa [hpos, hpos] at this⟩)
    have hr : (r.map Prod.fst).Nodup := a2 ▸ hn
    have hr' : (r'.map Prod.fst).Nodup := b2 ▸ hn
    apply assoc_ext (a2.trans b2.symm) hr
    intro k hkm
    rw [a2] at hkm
    obtain ⟨p, hpm, hpk⟩ := List.mem_map.1 (hlab.mem_iff.2 hkm)
    by_cases hNk : p.2.hasNaN = true
    · have m1 := a4 p hpm hNk
      have m2 := b4 p (hp.mem_iff.2 hpm) hNk
      rw [hpk] at m1 m2
      rw [dictGet?_of_mem hr m1, dictGet?_of_mem hr' m2]
    · have hkk : k ∈ known := List.mem_map.2 ⟨p, List.mem_filter.2 ⟨hpm, by simpa using hNk⟩, hpk⟩
      obtain ⟨q, hq, hqk⟩ := List.mem_map.1 (a5.1.mem_iff.2 hkk)
      have m1 : (k, q.2) ∈ r := hqk ▸ (List.mem_filter.1 hq).1
      have m2 : (k, q.2) ∈ r' := hqk ▸ (List.mem_filter.1 (hperm.mem_iff.1 hq)).1
      rw [dictGet?_of_mem hr m1, dictGet?_of_mem hr' m2]

example : (exPred.map Prod.fst).Perm (exOrig.map Prod.fst) := by simp [exPred, exOrig]

/-! ## C85: additional prediction columns -/

/-- C85 violated: "additional columns are ignored" — but a NaN in an additional column removes the
entity from the assignment.  Two entities whose predictions are exactly swapped are swapped when
the extra column holds numbers, and both left in place when one extra entry is NaN. -/
theorem C85_violated_extra_column (lsa : LSA) (hl : IsLSA lsa) :
    (∃ remap, assignRemap lsa exOrig
        [(1, ⟨some 1, some 0, [some 9]⟩), (2, ⟨some 0, some 0, [some 9]⟩)] = .ok remap ∧
        (1, 2) ∈ remap ∧ (2, 1) ∈ remap) ∧
    (∃ remap, assignRemap lsa exOrig
        [(1, ⟨some 1, some 0, [none]⟩), (2, ⟨some 0, some 0, [some 9]⟩)] = .ok remap ∧
        (1, 1) ∈ remap ∧ (2, 2) ∈ remap) := by
  have hn : (exOrig.map Prod.fst).Nodup := by simp [exOrig]
  have hd : ∀ k ∈ exOrig.map Prod.fst, ∀ l ∈ exOrig.map Prod.fst,
      posOf exOrig k = posOf exOrig l → k = l := by
    simp [exOrig, posOf]
  constructor
  · obtain ⟨remap, e1, e2⟩ := core_truth lsa hl exOrig
      [(1, ⟨some 1, some 0, [some 9]⟩), (2, ⟨some 0, some 0, [some 9]⟩)] hn (by simp [exOrig]) hd
      [(1, 2), (2, 1)] (by unfold IsBijection exOrig; simp; decide) (by
        simp [exOrig, posOf, predCoords])
    refine ⟨remap, ?_, (e2 _).2 (by simp), (e2 _).2 (by simp)⟩
    unfold assignRemap
    rw [if_neg (by simp [PredRow.hasNaN])]; exact e1
  · obtain ⟨r, a1, a2, a3, a4, a5, -⟩ := nan_branch lsa hl exOrig hn
      [(1, ⟨some 1, some 0, [none]⟩), (2, ⟨some 0, some 0, [some 9]⟩)] (by simp [exOrig])
      ⟨_, List.mem_cons_self, rfl⟩
    have h1 : (1, 1) ∈ r := a4 (1, ⟨some 1, some 0, [none]⟩) (by simp) rfl
    refine ⟨r, a1, h1, ?_⟩
    have hk : ([(1, ⟨some 1, some 0, [none]⟩), (2, ⟨some 0, some 0, [some 9]⟩)] :
        List (ℕ × PredRow)).filter (fun r => !r.2.hasNaN) = [(2, ⟨some 0, some 0, [some 9]⟩)] := by
      simp [List.filter_cons, PredRow.hasNaN]
    rw [hk] at a5
    obtain ⟨q, hq, hq1⟩ := List.mem_map.1 (a5.1.mem_iff.2 (by simp : 2 ∈ _))
    have hq2 : q.2 ∈ [2] := a5.2.mem_iff.1 (List.mem_map_of_mem hq)
    have : q = (2, 2) := Prod.ext hq1 (by simpa using hq2)
    rw [← this]; exact (List.mem_filter.1 hq).1

/-- C85 (partial): NaN-free additional columns are ignored. Missing: additional columns containing
NaN, where the claim is false (`C85_violated_extra_column`). -/
theorem C85_extra_ignored_partial (lsa : LSA) (orig : List (ι × Vec)) (pred pred' : List (ι × PredRow))
    (h : List.Forall₂ (fun p q => p.1 = q.1 ∧ p.2.e = q.2.e ∧ p.2.n = q.2.n) pred pred')
    (hN : ∀ p ∈ pred ++ pred', none ∉ p.2.extra) :
    assignRemap lsa orig pred = assignRemap lsa orig pred' := by
  have hnan : ∀ p ∈ pred ++ pred', p.2.hasNaN = (p.2.e.isNone || p.2.n.isNone) := by
    intro p hp
    have : p.2.extra.any Option.isNone = false := by
      rw [Bool.eq_false_iff]
      intro h
      obtain ⟨x, hx, hx'⟩ := List.any_eq_true.1 h
      rw [Option.isNone_iff_eq_none] at hx'
      exact hN p hp (hx' ▸ hx)
    simp [PredRow.hasNaN, this]
  have hF : List.Forall₂ (fun p q => p.1 = q.1 ∧ p.2.e = q.2.e ∧ p.2.n = q.2.n ∧
      p.2.hasNaN = q.2.hasNaN) pred pred' := by
    rw [List.forall₂_iff_get] at h ⊢
    refine ⟨h.1, fun i h1 h2 => ?_⟩
    have := h.2 i h1 h2
    refine ⟨this.1, this.2.1, this.2.2, ?_⟩
    rw [hnan _ (List.mem_append_left _ (List.get_mem _ _)), hnan _ (List.mem_append_right _ (List.get_mem _ _)),
      this.2.1, this.2.2]
  clear h hN hnan
  have hcore : ∀ (orig : List (ι × Vec)) (pred pred' : List (ι × PredRow)),
      List.Forall₂ (fun p q => p.1 = q.1 ∧ p.2.e = q.2.e ∧ p.2.n = q.2.n ∧
      p.2.hasNaN = q.2.hasNaN) pred pred' →
      assignCore lsa orig (pred.map Prod.snd) = assignCore lsa orig (pred'.map Prod.snd) := by
    intro orig pred pred' h
    have hlen := h.length_eq
    have hC : costMatrix (orig.map Prod.snd) (pred.map Prod.snd) =
        costMatrix (orig.map Prod.snd) (pred'.map Prod.snd) := by
      funext i j
      unfold costMatrix
      rw [List.getElem?_map (l := pred), List.getElem?_map (l := pred')]
      by_cases hj : j < pred.length
      · have hj' : j < pred'.length := hlen ▸ hj
        have := (List.forall₂_iff_get.1 h).2 j hj hj'
        simp only [List.get_eq_getElem] at this
        rw [List.getElem?_eq_getElem hj, List.getElem?_eq_getElem hj']
        cases (orig.map Prod.snd)[i]? with
        | none => rfl
        | some a => simp only [Option.map_some, this.2.1, this.2.2.1]
      · have hj' : ¬ j < pred'.length := hlen ▸ hj
        rw [List.getElem?_eq_none (l := pred) (by omega), List.getElem?_eq_none (l := pred') (by omega)]
    unfold assignCore
    simp only [List.length_map, hC, hlen]
  have hany : (pred.any fun r => r.2.hasNaN) = pred'.any fun r => r.2.hasNaN := by
    clear hcore
    induction hF with
    | nil => rfl
    | cons h _ ih => simp only [List.any_cons, ih, h.2.2.2]
  have hfil : List.Forall₂ (fun p q => p.1 = q.1 ∧ p.2.e = q.2.e ∧ p.2.n = q.2.n ∧
      p.2.hasNaN = q.2.hasNaN) (pred.filter fun r => !r.2.hasNaN) (pred'.filter fun r => !r.2.hasNaN) := by
    clear hcore hany
    induction hF with
    | nil => exact .nil
    | cons h _ ih =>
      rw [List.filter_cons, List.filter_cons, h.2.2.2]
      split_ifs
      · exact .cons h ih
      · exact ih
  have hloc : ∀ a b : List (ι × PredRow), List.Forall₂ (fun p q => p.1 = q.1 ∧ p.2.e = q.2.e ∧ p.2.n = q.2.n ∧
      p.2.hasNaN = q.2.hasNaN) a b → a.mapM (locRow orig) = b.mapM (locRow orig) := by
    intro a b h
    induction h with
    | nil => rfl
    | cons h _ ih =>
      rw [List.mapM_cons, List.mapM_cons, ih]
      simp only [locRow, h.1]
  have hpart : ∀ sr k, nanPart pred sr k = nanPart pred' sr k := by
    intro sr k
    have : (dictGet? pred k.1).map PredRow.hasNaN = (dictGet? pred' k.1).map PredRow.hasNaN := by
      clear hcore hany hfil hloc
      induction hF with
      | nil => rfl
      | @cons a b l l' h _ ih =>
        rw [dictGet?_cons, dictGet?_cons, h.1]
        split_ifs
        · simp [h.2.2.2]
        · exact ih
    unfold nanPart
    cases h1 : dictGet? pred k.1 with
    | none =>
      cases h2 : dictGet? pred' k.1 with
      | none => rfl
      | some b => rw [h1, h2] at this; simp at this
    | some a =>
      cases h2 : dictGet? pred' k.1 with
      | none => rw [h1, h2] at this; simp at this
      | some b =>
        rw [h1, h2] at this
        simp only [Option.map_some, Option.some.injEq] at this
        simp only [this]
  unfold assignRemap
  rw [hany]
  split_ifs
  · simp only [hloc _ _ hfil, hcore _ _ _ hfil, funext (hpart _)]
  · exact hcore _ _ _ hF

example : List.Forall₂ (fun p q : ℕ × PredRow => p.1 = q.1 ∧ p.2.e = q.2.e ∧ p.2.n = q.2.n)
    [(1, ⟨some 1, none, [some 3]⟩)] [(1, ⟨some 1, none, [some 4, some 5]⟩)] := by simp

/-! ## C86: numbers of originals and predictions must agree -/

/-- C86: fewer predictions than originals raise `IndexError`. -/
theorem C86_too_few (lsa : LSA) (orig : List (ι × Vec)) (pred : List (ι × PredRow))
    (h : pred.length < orig.length) (hN : ∀ p ∈ pred, p.2.hasNaN = false) :
    Raises (assignRemap lsa orig pred) .indexError := by
  unfold assignRemap
  rw [if_neg (noNaN hN)]
  unfold assignCore
  rw [if_pos (by simpa using h)]
  rfl

example : ([] : List (ℕ × PredRow)).length < exOrig.length := by decide

/-- C86: more predictions than originals also raise `IndexError`, except when the first
`len(original)` predictions are exactly the original positions in some order (the surplus
predictions cost nothing, so one of them replaces any pair that is not a perfect match). -/
theorem C86_too_many (lsa : LSA) (hl : IsLSA lsa) (orig : List (ι × Vec)) (pred : List (ι × PredRow))
    (hne : orig ≠ []) (h : orig.length < pred.length) (hN : ∀ p ∈ pred, p.2.hasNaN = false)
    (hpos : ¬ (((predCoords pred).map Prod.snd).take orig.length).Perm (orig.map Prod.snd)) :
    Raises (assignRemap lsa orig pred) .indexError := by
  unfold assignRemap
  rw [if_neg (noNaN hN)]
  unfold assignCore
  rw [if_neg (by simpa using h.le)]
  set n := orig.length with hnn
  set C := costMatrix (orig.map Prod.snd) (pred.map Prod.snd) with hC
  obtain ⟨hm, hopt⟩ := hl n pred.length C
  simp only [List.length_map, ← hnn]
  set rc := lsa n pred.length C with hrc
  have hmin : min n pred.length = n := by omega
  have hr : rc.1 = List.range n := sorted_range hm.rows_sorted hm.rows_lt (by rw [hm.rows_len, hmin])
  have hcl : rc.2.length = n := by rw [hm.cols_len, hmin]
  have hn0 : 0 < n := List.length_pos_iff.2 hne
  -- some column is beyond the originals
  have hbad : ∃ j ∈ rc.2, n ≤ j := by
    by_contra hcon
    push Not at hcon
    have hCe : ∀ i j (hi : i < n) (hj : j < n), C i j = pdist (orig[i]'(hnn ▸ hi)).2
        ((pred[j]'(hj.trans h)).2.e.getD 0, (pred[j]'(hj.trans h)).2.n.getD 0) := by
      intro i j hi hj
      have hjp : j < pred.length := by omega
      rw [hC]
      unfold costMatrix
      rw [List.getElem?_map, List.getElem?_map, List.getElem?_eq_getElem hi,
        List.getElem?_eq_getElem hjp]
      simp only [Option.map_some, List.length_map, ← hnn, hj, if_true]
      rfl
    have hCz : ∀ i, C i n = 0 := by
      intro i
      rw [hC]
      unfold costMatrix
      split
      · rw [if_neg (by simp [← hnn])]
      · rfl
    -- replacing any column by the free column `n` cannot be cheaper
    have hzero : ∀ i (hi : i < rc.2.length), C i rc.2[i] ≤ 0 := by
      intro i hi
      have hnmem : n ∉ rc.2 := fun hmem => absurd (hcon n hmem) (lt_irrefl n)
      have hmatch : IsMatching n pred.length (List.range n) (rc.2.set i n) := by
        refine ⟨List.pairwise_lt_range, by simp, ?_, ?_, by simp [hmin], by simp [hcl, hmin]⟩
        · exact hm.cols_nodup.set hnmem
        · intro j hj
          rcases List.mem_or_eq_of_mem_set hj with hj | rfl
          · exact hm.cols_lt j hj
          · exact h
      have hle := hopt _ _ hmatch
      rw [hr] at hle
      have hset : List.zipWith C (List.range n) (rc.2.set i n) =
          (List.zipWith C (List.range n) rc.2).set i 0 := by
        apply List.ext_getElem
        · simp
        · intro k h1 h2
          simp only [List.getElem_zipWith, List.getElem_range, List.getElem_set]
          split_ifs
          · exact hCz _
          · rfl
      unfold matchCost at hle
      rw [hset, List.sum_set', dif_pos (by simp [hcl]; omega)] at hle
      simp only [List.getElem_zipWith, List.getElem_range] at hle
      linarith
    apply hpos
    have hperm : rc.2.Perm (List.range n) := by
      refine (List.perm_ext_iff_of_nodup hm.cols_nodup List.nodup_range).2 fun a =>
        ⟨fun ha => List.mem_range.2 (hcon a ha), fun ha => ?_⟩
      by_contra hna
      have hsub := (List.subperm_of_subset (l₂ := (List.range n).erase a) hm.cols_nodup
        (fun x hx => (List.mem_erase_of_ne (fun e => hna (by rw [← e]; exact hx))).2
          (List.mem_range.2 (hcon x hx)))).length_le
      rw [hcl, List.length_erase_of_mem ha, List.length_range] at hsub
      omega
    set P : ℕ → Vec := fun j => ((predCoords pred).map Prod.snd).getD j (0, 0) with hP
    have h1 : ((predCoords pred).map Prod.snd).take n = (List.range n).map P := by
      apply List.ext_getElem
      · simp [predCoords]; omega
      · intro k h1 h2
        have hk : k < pred.length := by simp at h2; omega
        simp [hP, predCoords, hk]
    have h2 : orig.map Prod.snd = rc.2.map P := by
      apply List.ext_getElem
      · simp [hcl, hnn]
      · intro k h1 h2
        have hk : k < rc.2.length := by simpa using h2
        have hkn : k < n := hcl ▸ hk
        have hz := hzero k hk
        have hj := hcon rc.2[k] (List.getElem_mem _)
        have hjp : rc.2[k] < pred.length := hj.trans h
        rw [hCe k _ hkn hj] at hz
        have := pdist_eq_zero (le_antisymm hz (pdist_nonneg _ _))
        simp [hP, predCoords, hjp, this]
    rw [h1, h2]
    exact (hperm.map P).symm
  obtain ⟨j, hj, hjn⟩ := hbad
  have hnone : rc.2.mapM (fun j => (orig.map Prod.fst)[j]?) = none := by
    have : ∀ c : List ℕ, j ∈ c → c.mapM (fun j => (orig.map Prod.fst)[j]?) = none := by
      intro c hc
      induction c with
      | nil => simp at hc
      | cons a c ih =>
        rw [List.mapM_cons]
        rcases List.mem_cons.1 hc with rfl | hc
        · rw [List.getElem?_eq_none (by simpa using hjn)]; rfl
        · rw [ih hc]
          cases (orig.map Prod.fst)[a]? <;> rfl
    exact this _ hj
  rw [hnone]
  rfl

example : exOrig.length < ([(1, ⟨some 5, some 5, []⟩), (2, ⟨some 6, some 5, []⟩),
    (3, ⟨some 7, some 7, []⟩)] : List (ℕ × PredRow)).length ∧
    ¬ (((predCoords ([(1, ⟨some 5, some 5, []⟩), (2, ⟨some 6, some 5, []⟩),
    (3, ⟨some 7, some 7, []⟩)] : List (ℕ × PredRow))).map Prod.snd).take exOrig.length).Perm
      (exOrig.map Prod.snd) := by
  refine ⟨by decide, fun h => ?_⟩
  have := h.mem_iff (a := ((5 : ℝ), (5 : ℝ)))
  simp [exOrig, predCoords] at this

end SST.Props.Assign
