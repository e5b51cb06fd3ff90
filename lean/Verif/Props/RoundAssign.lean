import Verif.Props.RoundVec
import Verif.Props.Assign
import Verif.Model.RoundAssign

/-!
# Property C266: `assign_positions` with rounding
-/

namespace SST.Round
open SST SST.Field SST.Spec SST.Props.Assign

variable {ι κ : Type} [LinearOrder ι] [DecidableEq κ] {u : ℝ} {A : Arith}

theorem cost_near (h : FloatLike u A) (plan : List Vec) (pred : List PredRow) (i j : ℕ) : Near u 5 (costMatrix plan pred i j) (costMatrixF A plan pred i j) := by
  have h0 := u_nonneg h.rounds
  have z : Near u 5 0 0 := by simp [Near]
  unfold costMatrix costMatrixF
  rcases plan[i]? with _ | p
  · exact z
  rcases pred[j]? with _ | q
  · exact z
  simp only
  split_ifs
  · exact C260_distance h p (q.e.getD 0, q.n.getD 0)
  · exact z

theorem matchCost_near {n : ℕ} {C D : ℕ → ℕ → ℝ} (h : ∀ i j, Near u n (C i j) (D i j)) (r c : List ℕ) : Near u n (matchCost C r c) (matchCost D r c) := by
  unfold matchCost
  induction r generalizing c with
  | nil => simp [Near]
  | cons i r ih =>
    cases c with
    | nil => simp [Near]
    | cons j c =>
      rw [List.zipWith_cons_cons, List.zipWith_cons_cons, List.sum_cons, List.sum_cons]
      exact (h i j).add (ih c)

/-- C266: with rounding `assign_positions` returns a bijection of the labels of which the total distance is at most `(1 - u)⁻¹⁰` times the least possible one, and the
table remapped with it. -/
theorem C266_near_optimal (h : FloatLike u A) (lsa : LSA) (hl : IsLSA lsa) (nan : ℝ) (original : Frame ι κ ℝ) (hn : original.index.Nodup) (c0 c1 : κ) (rest : List κ)
    (hcols : original.cols = c0 :: c1 :: rest) (pred : List (ι × PredRow)) (hlab : pred.map Prod.fst = original.index) :
    ∃ remap out, assignPositionsF A lsa nan original pred = .ok (remap, out) ∧ IsBijection remap original.index ∧ (remap.map Prod.fst).Pairwise (· < ·) ∧
      (∀ remap', IsBijection remap' original.index →
        (1 - u) ^ 10 * totalDist (coords c0 c1 original) (predCoords pred) remap ≤ totalDist (coords c0 c1 original) (predCoords pred) remap') ∧
      remapPositions nan original remap none = .ok out := by
  have h0 := u_nonneg h.rounds
  obtain ⟨p5, -⟩ := pow_unit h0 h.lt_one 5
  obtain ⟨p10, -⟩ := pow_unit h0 h.lt_one 10
  have hf := coords_fst c0 c1 original
  set orig := coords c0 c1 original with horig
  have hlen : pred.length = orig.length := by
    have := congrArg List.length (hlab.trans hf.symm)
    simpa using this
  have hcore : assignCoreF A lsa orig (pred.map Prod.snd) = assignCore (fun n m _ => lsa n m (costMatrixF A (orig.map Prod.snd) (pred.map Prod.snd))) orig (pred.map Prod.snd) := rfl
  obtain ⟨remap, e1, e2, e3, e4⟩ := core_ok_of (1 / (1 - u) ^ 10) (fun n m _ => lsa n m (costMatrixF A (orig.map Prod.snd) (pred.map Prod.snd)))
    (fun n m C => (hl n m _).1) orig pred (hf ▸ hn) (by rw [hf]; exact hlab) (by
      intro r c hm
      have opt := (hl orig.length orig.length (costMatrixF A (orig.map Prod.snd) (pred.map Prod.snd))).2 r c hm
      have a := (matchCost_near (cost_near h (orig.map Prod.snd) (pred.map Prod.snd))
        (lsa orig.length orig.length (costMatrixF A (orig.map Prod.snd) (pred.map Prod.snd))).1
        (lsa orig.length orig.length (costMatrixF A (orig.map Prod.snd) (pred.map Prod.snd))).2).1
      have b := (matchCost_near (cost_near h (orig.map Prod.snd) (pred.map Prod.snd)) r c).2
      rw [div_mul_eq_mul_div, one_mul, le_div_iff₀ p10]
      have e : (1 - u) ^ 10 = (1 - u) ^ 5 * (1 - u) ^ 5 := by ring
      rw [e, ← mul_assoc]
      have c1 := mul_le_mul_of_nonneg_left (a.trans opt) p5.le
      nlinarith)
  rw [hf] at e3 e4
  obtain ⟨out, o1, -⟩ := remap_ok nan original remap none (by simp) (fun p hp => e3.1.mem_iff.1 (List.mem_map_of_mem hp)) (fun p hp => e3.2.mem_iff.1 (List.mem_map_of_mem hp))
  refine ⟨remap, out, ?_, e3, e2, ?_, o1⟩
  · unfold assignPositionsF
    rw [hcols]
    rw [← hcore] at e1
    simp only
    show (assignCoreF A lsa orig (pred.map Prod.snd) >>= _) = _
    rw [e1]
    show (remapPositions nan original remap none >>= _) = _
    rw [o1]
    rfl
  · intro remap' hb
    have := e4 remap' hb
    rw [div_mul_eq_mul_div, one_mul, le_div_iff₀ p10] at this
    linarith

/-- C266: predictions that are exactly the original positions of the true places are recovered with rounding as well. -/
theorem C266_exact_recovery (h : FloatLike u A) (lsa : LSA) (hl : IsLSA lsa) (nan : ℝ) (original : Frame ι κ ℝ) (hn : original.index.Nodup) (c0 c1 : κ) (rest : List κ)
    (hcols : original.cols = c0 :: c1 :: rest) (pred : List (ι × PredRow)) (hlab : pred.map Prod.fst = original.index)
    (hdist : ∀ k ∈ original.index, ∀ l ∈ original.index, posOf (coords c0 c1 original) k = posOf (coords c0 c1 original) l → k = l)
    (truth : List (ι × ι)) (ht : IsBijection truth original.index) (hpos : ∀ p ∈ truth, posOf (predCoords pred) p.1 = posOf (coords c0 c1 original) p.2) :
    ∃ remap out, assignPositionsF A lsa nan original pred = .ok (remap, out) ∧ (∀ p, p ∈ remap ↔ p ∈ truth) ∧ (remap.map Prod.fst).Pairwise (· < ·) := by
  obtain ⟨p10, -⟩ := pow_unit (u_nonneg h.rounds) h.lt_one 10
  obtain ⟨remap, out, a, b, c, d, -⟩ := C266_near_optimal h lsa hl nan original hn c0 c1 rest hcols pred hlab
  refine ⟨remap, out, a, ?_, c⟩
  have t0 : totalDist (coords c0 c1 original) (predCoords pred) truth = 0 := by
    unfold totalDist
    apply List.sum_eq_zero
    intro x hx
    obtain ⟨p, hp, rfl⟩ := List.mem_map.1 hx
    rw [hpos p hp]
    simp [pdist]
  have le := d truth ht
  rw [t0] at le
  refine exact_of_zero hn hdist ht b hpos ?_
  rw [t0]
  by_contra hc
  have := mul_pos p10 (not_le.mp hc)
  linarith

/-- C266: a true assignment that is better than every other one by more than the factor `(1 - u)⁻¹⁰` is found with rounding. -/
theorem C266_gap (h : FloatLike u A) (lsa : LSA) (hl : IsLSA lsa) (nan : ℝ) (original : Frame ι κ ℝ) (hn : original.index.Nodup) (c0 c1 : κ) (rest : List κ)
    (hcols : original.cols = c0 :: c1 :: rest) (pred : List (ι × PredRow)) (hlab : pred.map Prod.fst = original.index)
    (truth : List (ι × ι)) (ht : IsBijection truth original.index)
    (hgap : ∀ remap', IsBijection remap' original.index → ¬ (∀ p, p ∈ remap' ↔ p ∈ truth) →
      totalDist (coords c0 c1 original) (predCoords pred) truth < (1 - u) ^ 10 * totalDist (coords c0 c1 original) (predCoords pred) remap') :
    ∃ remap out, assignPositionsF A lsa nan original pred = .ok (remap, out) ∧ ∀ p, p ∈ remap ↔ p ∈ truth := by
  obtain ⟨remap, out, a, b, c, d, -⟩ := C266_near_optimal h lsa hl nan original hn c0 c1 rest hcols pred hlab
  refine ⟨remap, out, a, ?_⟩
  by_contra hc
  exact absurd (d truth ht) (not_le.mpr (hgap remap b hc))

/-- Two combiners exchanged, found with 53 digits. -/
example (lsa : LSA) (hl : IsLSA lsa) : ∃ remap out, assignPositionsF ⟨round53, sum53⟩ lsa 0 (⟨["E", "N"], [(1, fun _ => 0), (2, fun c => if c = "E" then 1 else 0)]⟩ : Frame ℕ String ℝ)
      [(1, ⟨some 1, some 0, []⟩), (2, ⟨some 0, some 0, []⟩)] = .ok (remap, out) ∧ (∀ p, p ∈ remap ↔ p ∈ [(1, 2), (2, 1)]) ∧ (remap.map Prod.fst).Pairwise (· < ·) := by
  refine C266_exact_recovery float53 lsa hl 0 _ (by simp [Frame.index]) "E" "N" [] rfl _ (by simp [Frame.index]) ?_ _ ?_ ?_
  · simp [Frame.index, coords, posOf]
  · simp only [Frame.index]; unfold IsBijection; decide
  · simp [coords, posOf, predCoords]

end SST.Round
