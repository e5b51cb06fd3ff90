import Verif.Proofs.Ramps
import Mathlib.Data.List.Forall2
import Mathlib.Algebra.Order.Floor.Semifield

/-! # Helper lemmas: time step, resampling, path length -/

namespace SST.Stats
open SST

/-- A regular index: `n` stamps, `h` apart, from `t0`. -/
noncomputable def regular (t0 h : ℝ) (n : ℕ) : List ℝ := (List.range n).map fun (i : ℕ) => t0 + i * h

/-! ## Time step -/

theorem steps_regular (t0 h : ℝ) (n : ℕ) :
    List.zipWith (fun (a b : ℝ) => a - b) (regular t0 h n).tail (regular t0 h n) = List.replicate (n - 1) h := by
  unfold regular
  apply List.ext_getElem
  · simp
  · intro i h1 h2
    simp only [List.getElem_zipWith, List.getElem_tail, List.getElem_map, List.getElem_range, List.getElem_replicate]
    push_cast
    ring

theorem medianStep_of_steps (t : List ℝ) (P : ℝ → Prop) (h2 : 2 ≤ t.length)
    (hP : ∀ d ∈ List.zipWith (fun (a b : ℝ) => a - b) t.tail t, P d) :
    ∃ a b, P a ∧ P b ∧ medianStep t = some ((a + b) / 2) := by
  set d := List.zipWith (fun (a b : ℝ) => a - b) t.tail t with hd
  have hl : d.length = t.length - 1 := by rw [hd]; simp
  have hs : (d.insertionSort (· ≤ ·)).length = d.length := List.length_insertionSort _ _
  have hne : d.insertionSort (· ≤ ·) ≠ [] := by
    intro h0; rw [h0] at hs; simp at hs; omega
  have hmem : ∀ k, k < d.length → P ((d.insertionSort (· ≤ ·)).getD k 0) := by
    intro k hk
    rw [List.getD_eq_getElem _ _ (by omega)]
    apply hP
    exact (List.perm_insertionSort (· ≤ ·) d).mem_iff.1 (List.getElem_mem _)
  refine ⟨_, _, hmem ((d.length - 1) / 2) (by omega), hmem (d.length / 2) (by omega), ?_⟩
  unfold medianStep
  simp only
  rw [← hd, if_neg hne, hs]

theorem medianStep_regular (t0 h : ℝ) (n : ℕ) (hn : 2 ≤ n) : medianStep (regular t0 h n) = some h := by
  obtain ⟨a, b, rfl, rfl, he⟩ := medianStep_of_steps (regular t0 h n) (fun d => d = h) (by simp [regular, hn]) (by
    intro d hd
    rw [steps_regular] at hd
    exact (List.mem_replicate.1 hd).2)
  rw [he]; congr 1; ring

theorem medianStep_pos (t : List ℝ) (h2 : 2 ≤ t.length) (hi : t.Pairwise (· < ·)) : ∃ dt, medianStep t = some dt ∧ 0 < dt := by
  obtain ⟨a, b, ha, hb, he⟩ := medianStep_of_steps t (fun d => 0 < d) h2 (by
    intro d hd
    obtain ⟨i, hi', rfl⟩ := List.mem_iff_getElem.1 hd
    simp only [List.length_zipWith, List.length_tail] at hi'
    simp only [List.getElem_zipWith, List.getElem_tail]
    have := List.pairwise_iff_getElem.1 hi i (i + 1) (by omega) (by omega) (by omega)
    linarith)
  exact ⟨_, he, by linarith⟩

theorem medianStep_short (t : List ℝ) (h : t.length < 2) : medianStep t = none := by
  unfold medianStep
  have : List.zipWith (fun (a b : ℝ) => a - b) t.tail t = [] := by
    apply List.length_eq_zero_iff.1
    simp; omega
  simp [this]

/-! ## Groups -/

/-- Means of consecutive groups of `m` samples (NaN left out; the last group may be shorter). -/
noncomputable def groups (m : ℕ) (s : List (Option ℝ)) : List (Option ℝ) :=
  (List.range ((s.length + m - 1) / m)).map fun (j : ℕ) => pdMean ((s.drop (j * m)).take m)

theorem range_filter_map {α : Type} (s : List α) (d : α) (a b : ℕ) :
    ((List.range s.length).filter fun i => a ≤ i ∧ i < b).map (fun i => s.getD i d) = (s.drop a).take (b - a) := by
  induction s generalizing a b with
  | nil => simp
  | cons x s ih =>
    rw [List.length_cons, List.range_succ_eq_map, List.filter_cons, List.filter_map]
    have hp' : ((fun i => decide (a ≤ i ∧ i < b)) ∘ Nat.succ) = fun i => decide (a - 1 ≤ i ∧ i < b - 1) := by
      funext i
      simp only [Function.comp_apply]
      apply decide_eq_decide.2
      omega
    rw [hp']
    have hmap : (((List.range s.length).filter fun i => decide (a - 1 ≤ i ∧ i < b - 1)).map Nat.succ).map (fun i => (x :: s).getD i d) = (s.drop (a - 1)).take (b - 1 - (a - 1)) := by
      rw [← ih, List.map_map]
      rfl
    rcases Nat.eq_zero_or_pos a with rfl | ha
    · rcases Nat.eq_zero_or_pos b with rfl | hb
      · simp
      · rw [if_pos (by simp [hb]), List.map_cons, hmap]
        obtain ⟨b, rfl⟩ : ∃ c, b = c + 1 := ⟨b - 1, by omega⟩
        simp
    · rw [if_neg (by simp; omega), hmap]
      obtain ⟨a, rfl⟩ : ∃ c, a = c + 1 := ⟨a - 1, by omega⟩
      simp only [Nat.add_sub_cancel, List.drop_succ_cons]
      congr 1
      omega

theorem floor_regular (t0 h : ℝ) (m : ℕ) (q : ℤ) (hh : 0 < h) (hm : 0 < m) (h0 : t0 = q * (m * h)) (i : ℕ) :
    ⌊(t0 + i * h) / (m * h)⌋ = q + ((i / m : ℕ) : ℤ) := by
  have hm' : (0 : ℝ) < m := by exact_mod_cast hm
  have : (t0 + i * h) / (m * h) = ((q : ℤ) : ℝ) + ((i : ℝ) / (m : ℝ)) := by rw [h0]; field_simp
  rw [this, Int.floor_intCast_add]
  congr 1
  rw [← Nat.floor_div_eq_div (K := ℝ), Int.natCast_floor_eq_floor (by positivity)]

theorem resample_groups (t0 h : ℝ) (m : ℕ) (q : ℤ) (hh : 0 < h) (hm : 0 < m) (h0 : t0 = q * (m * h)) (s : List (Option ℝ)) (hs : s ≠ []) :
    resampleMean (m * h) (regular t0 h s.length) s = groups m s := by
  have hn : 0 < s.length := List.length_pos_iff.2 hs
  have hhead : (regular t0 h s.length).head? = some (t0 + (0 : ℕ) * h) := by
    unfold regular
    rw [List.head?_eq_getElem?, List.getElem?_map, List.getElem?_range hn]; rfl
  have hlast : (regular t0 h s.length).getLast? = some (t0 + ((s.length - 1 : ℕ)) * h) := by
    unfold regular
    rw [List.getLast?_eq_getElem?, List.length_map, List.length_range, List.getElem?_map, List.getElem?_range (by omega)]; rfl
  unfold resampleMean groups
  rw [hhead, hlast]
  simp only
  rw [floor_regular t0 h m q hh hm h0, floor_regular t0 h m q hh hm h0]
  have hk : (q + (((s.length - 1) / m : ℕ) : ℤ) - (q + ((0 / m : ℕ) : ℤ)) + 1).toNat = (s.length + m - 1) / m := by
    have h1 : (s.length + m - 1) / m = (s.length - 1) / m + 1 := by
      rw [show s.length + m - 1 = (s.length - 1) + m by omega, Nat.add_div_right _ hm]
    rw [h1, Nat.zero_div]
    generalize (s.length - 1) / m = x
    omega
  rw [hk]
  apply List.map_congr_left
  intro j _
  congr 1
  have hz : (regular t0 h s.length).zip s = (List.range s.length).map fun (i : ℕ) => (t0 + i * h, s.getD i none) := by
    unfold regular
    apply List.ext_getElem
    · simp
    · intro i h1 h2
      simp only [List.length_map, List.length_range] at h2
      simp only [List.getElem_zip, List.getElem_map, List.getElem_range]
      rw [List.getD_eq_getElem _ _ h2]
  rw [hz, List.filter_map, List.map_map]
  have hp : ((fun p : ℝ × Option ℝ => decide (⌊p.1 / (m * h)⌋ = q + ((0 / m : ℕ) : ℤ) + j)) ∘ fun (i : ℕ) => (t0 + i * h, s.getD i none)) =
      fun i => decide (j * m ≤ i ∧ i < j * m + m) := by
    funext i
    simp only [Function.comp_apply]
    apply decide_eq_decide.2
    rw [floor_regular t0 h m q hh hm h0, Nat.zero_div]
    constructor
    · intro hij
      have : i / m = j := by omega
      subst this
      exact ⟨Nat.div_mul_le_self i m, by have := Nat.lt_div_mul_add hm (a := i); omega⟩
    · rintro ⟨h1, h2⟩
      have : i / m = j := by
        apply Nat.div_eq_of_lt_le
        · exact h1
        · rw [Nat.succ_mul]; exact h2
      subst this
      push_cast
      ring
  rw [hp]
  have := range_filter_map s none (j * m) (j * m + m)
  rw [show j * m + m - j * m = m by omega] at this
  rw [← this]
  rfl

theorem times_regular (t0 h : ℝ) (m : ℕ) (q : ℤ) (hh : 0 < h) (hm : 0 < m) (h0 : t0 = q * (m * h)) (n : ℕ) (hn : 0 < n) :
    resampleTimes (m * h) (regular t0 h n) = regular t0 (m * h) ((n + m - 1) / m) := by
  have hhead : (regular t0 h n).head? = some (t0 + (0 : ℕ) * h) := by
    unfold regular
    rw [List.head?_eq_getElem?, List.getElem?_map, List.getElem?_range hn]; rfl
  have hlast : (regular t0 h n).getLast? = some (t0 + ((n - 1 : ℕ)) * h) := by
    unfold regular
    rw [List.getLast?_eq_getElem?, List.length_map, List.length_range, List.getElem?_map, List.getElem?_range (by omega)]; rfl
  unfold resampleTimes
  rw [hhead, hlast]
  simp only
  rw [floor_regular t0 h m q hh hm h0, floor_regular t0 h m q hh hm h0]
  have hk : (q + (((n - 1) / m : ℕ) : ℤ) - (q + ((0 / m : ℕ) : ℤ)) + 1).toNat = (n + m - 1) / m := by
    have h1 : (n + m - 1) / m = (n - 1) / m + 1 := by
      rw [show n + m - 1 = (n - 1) + m by omega, Nat.add_div_right _ hm]
    rw [h1, Nat.zero_div]
    generalize (n - 1) / m = x
    omega
  rw [hk]
  unfold regular
  apply List.map_congr_left
  intro j _
  rw [h0, Nat.zero_div]
  push_cast
  ring

theorem pyInt_nat (m : ℕ) : pyInt (m : ℝ) = m := by
  unfold pyInt
  rw [if_pos (Nat.cast_nonneg _)]
  simp

/-! ## Averaging does not increase total variation -/

theorem flatten_chunks {α : Type} (s : List α) (m k : ℕ) :
    ((List.range k).map fun j => (s.drop (j * m)).take m).flatten = s.take (k * m) := by
  induction k with
  | zero => simp
  | succ k ih =>
    rw [List.range_succ, List.map_append, List.flatten_append, ih, Nat.succ_mul, List.take_add]
    simp

theorem select_sublist {α : Type} (xs : List α) (Gs : List (List α)) (h : List.Forall₂ (fun x G => x ∈ G) xs Gs) : xs.Sublist Gs.flatten := by
  induction h with
  | nil => simp
  | @cons x G xs Gs hx _ ih =>
    rw [List.flatten_cons]
    have : [x].Sublist G := List.singleton_sublist.2 hx
    exact this.append ih

theorem exists_ge_mean {G : List ℝ} (hG : G ≠ []) (f : ℝ → ℝ) (c : ℝ) (h : c * G.length ≤ (G.map f).sum) : ∃ x ∈ G, c ≤ f x := by
  by_contra hc
  push Not at hc
  have : (G.map f).sum < c * G.length := by
    clear h
    induction G with
    | nil => exact absurd rfl hG
    | cons a G ih =>
      simp only [List.map_cons, List.sum_cons, List.length_cons]
      have h1 := hc a (by simp)
      by_cases hn : G = []
      · subst hn; simp; linarith
      · have := ih hn (fun x hx => hc x (by simp [hx]))
        push_cast
        linarith
  linarith

theorem abs_mean_le (G : List ℝ) (hG : G ≠ []) (a : ℝ) : |mean G - a| * G.length ≤ (G.map fun x => |x - a|).sum := by
  have hn : (0 : ℝ) < G.length := by exact_mod_cast List.length_pos_iff.2 hG
  have h1 := sum_abs_le G (fun x => x - a)
  have h2 : (G.map fun x => x - a).sum = (mean G - a) * G.length := by
    unfold mean
    have : ∀ G : List ℝ, (G.map fun x => x - a).sum = G.sum - a * G.length := by
      intro G
      induction G with
      | nil => simp
      | cons b G ih => simp only [List.map_cons, List.sum_cons, ih, List.length_cons]; push_cast; ring
    rw [this]
    field_simp
  rw [h2, abs_mul, abs_of_pos hn] at h1
  exact h1

theorem select_mean_cons (Gs : List (List ℝ)) (hG : ∀ G ∈ Gs, G ≠ []) (a : ℝ) :
    ∃ xs, List.Forall₂ (fun x G => x ∈ G) xs Gs ∧ vsum (fun v => |v|) (a :: Gs.map mean) ≤ vsum (fun v => |v|) (a :: xs) := by
  induction Gs generalizing a with
  | nil => exact ⟨[], .nil, le_rfl⟩
  | cons G Gs ih =>
    have hG1 := hG G (by simp)
    have hn : (0 : ℝ) < G.length := by exact_mod_cast List.length_pos_iff.2 hG1
    have ih' := fun a => ih (fun G hG' => hG G (by simp [hG'])) a
    -- a best representative of the first group
    have hx : ∃ x ∈ G, |mean G - a| + vsum (fun v => |v|) (mean G :: Gs.map mean) ≤ |x - a| + vsum (fun v => |v|) (x :: Gs.map mean) := by
      apply exists_ge_mean hG1
      cases Gs with
      | nil =>
        simp only [List.map_nil, vsum, add_zero]
        exact abs_mean_le G hG1 a
      | cons G2 Gs =>
        simp only [List.map_cons, vsum]
        set K := vsum (fun v => |v|) (mean G2 :: Gs.map mean)
        have h1 := abs_mean_le G hG1 a
        have h2 := abs_mean_le G hG1 (mean G2)
        have h3 : (G.map fun x => |x - a| + (|mean G2 - x| + K)).sum = (G.map fun x => |x - a|).sum + (G.map fun x => |x - mean G2|).sum + K * G.length := by
          have : ∀ G : List ℝ, (G.map fun x => |x - a| + (|mean G2 - x| + K)).sum = (G.map fun x => |x - a|).sum + (G.map fun x => |x - mean G2|).sum + K * G.length := by
            intro G
            induction G with
            | nil => simp
            | cons b G ih => simp only [List.map_cons, List.sum_cons, ih, List.length_cons]; rw [abs_sub_comm (mean G2) b]; push_cast; ring
          exact this G
        rw [h3, abs_sub_comm (mean G2) (mean G)]
        linarith
    obtain ⟨x, hxG, hxle⟩ := hx
    obtain ⟨xs, hxs, hle⟩ := ih' x
    refine ⟨x :: xs, .cons hxG hxs, ?_⟩
    simp only [List.map_cons, vsum]
    linarith

theorem vsum_means_le (Gs : List (List ℝ)) (hG : ∀ G ∈ Gs, G ≠ []) :
    vsum (fun v => |v|) (Gs.map mean) ≤ vsum (fun v => |v|) Gs.flatten := by
  cases Gs with
  | nil => simp [vsum]
  | cons G Gs =>
    -- reuse the lemma with a free first value equal to the first mean
    have hG1 := hG G (by simp)
    obtain ⟨xs, hxs, hle⟩ := select_mean_cons (G :: Gs) hG (mean G)
    simp only [List.map_cons, vsum, sub_self, abs_zero, zero_add] at hle
    cases hxs with
    | @cons x _ xs _ hx hxs =>
      simp only [vsum] at hle
      -- choose the first representative again, now by averaging over `G`
      obtain ⟨x', hx', hle'⟩ : ∃ x' ∈ G, vsum (fun v => |v|) (mean G :: Gs.map mean) ≤ vsum (fun v => |v|) (x' :: Gs.map mean) := by
        apply exists_ge_mean hG1
        cases Gs with
        | nil => simp [vsum]
        | cons G2 Gs =>
          simp only [List.map_cons, vsum]
          set K := vsum (fun v => |v|) (mean G2 :: Gs.map mean)
          have h2 := abs_mean_le G hG1 (mean G2)
          have h3 : ∀ G : List ℝ, (G.map fun x => |mean G2 - x| + K).sum = (G.map fun x => |x - mean G2|).sum + K * G.length := by
            intro G
            induction G with
            | nil => simp
            | cons b G ih => simp only [List.map_cons, List.sum_cons, ih, List.length_cons]; rw [abs_sub_comm (mean G2) b]; push_cast; ring
          rw [h3, abs_sub_comm (mean G2) (mean G)]
          linarith
      obtain ⟨ys, hys, hle2⟩ := select_mean_cons Gs (fun G hG' => hG G (by simp [hG'])) x'
      rw [List.map_cons]
      refine hle'.trans (hle2.trans ?_)
      exact vsum_sublist (select_sublist (x' :: ys) (G :: Gs) (.cons hx' hys))

/-! ## Path length -/

theorem sqrt_add_le (a b c d : ℝ) : Real.sqrt ((a + c) ^ 2 + (b + d) ^ 2) ≤ Real.sqrt (a ^ 2 + b ^ 2) + Real.sqrt (c ^ 2 + d ^ 2) := by
  have := sum_minkowski [0, 1] (fun (i : ℕ) => if i = 0 then a else b) (fun (i : ℕ) => if i = 0 then c else d)
  simpa using this

theorem path_ge_line (l : List ℝ) (dt : ℝ) :
    Real.sqrt (l.sum ^ 2 + (l.length * dt) ^ 2) ≤ (l.map fun (v : ℝ) => Real.sqrt (v ^ 2 + dt ^ 2)).sum := by
  induction l with
  | nil => simp
  | cons a l ih =>
    simp only [List.sum_cons, List.length_cons, List.map_cons]
    calc Real.sqrt ((a + l.sum) ^ 2 + (((l.length + 1 : ℕ) : ℝ) * dt) ^ 2) = Real.sqrt ((a + l.sum) ^ 2 + (dt + l.length * dt) ^ 2) := by
          push_cast; congr 2; ring
      _ ≤ _ := sqrt_add_le _ _ _ _
      _ ≤ _ := by linarith

theorem ramps_sum (a : ℝ) (l : List ℝ) : (ramps ((a :: l).map some) 1).sum = (a :: l).getLastD 0 - a := by
  have h := vsum_eq id (a :: l)
  rw [List.map_id] at h
  rw [h]
  clear h
  induction l generalizing a with
  | nil => simp [vsum]
  | cons b l ih =>
    simp only [vsum, id]
    rw [ih]
    simp

end SST.Stats
