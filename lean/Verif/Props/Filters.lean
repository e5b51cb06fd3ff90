import Verif.Proofs.Filters

/-!
# Property C48: plant density profiles
-/

namespace SST.Props.Filters
open SST SST.Dft SST.Tf SST.Corr SST.Filters SST.Spatial

/-! ## C48 -/

/-- C48: the coordinate grid starts at `⌊-xmax/2⌋`, has step `dx` and ends just below `⌊xmax/2⌋`. -/
theorem C48_grid (centers : List ℝ) (ref : ℝ) (width : Option ℝ) (shape : String) (dx xmax : ℝ) (hdx : 0 < dx) (plant xs : List ℝ)
    (h : get1dPlant centers ref width shape dx xmax = .ok (plant, xs)) :
    plant.length = xs.length ∧ (∀ (i : ℕ) (x : ℝ), xs[i]? = some x → x = ⌊-xmax / 2⌋ + i * dx) ∧
    ∀ i : ℕ, i < xs.length ↔ (⌊-xmax / 2⌋ : ℝ) + i * dx < ⌊xmax / 2⌋ := by
  have hx : xs = xVec xmax dx ∧ plant.length = xs.length := by
    unfold get1dPlant at h
    simp only at h
    split_ifs at h <;> obtain ⟨rfl, rfl⟩ := Prod.mk.inj (Except.ok.inj h) <;> refine ⟨rfl, ?_⟩
    · exact fold_length (fun c x p => if c - width.getD dx / 2 ≤ x ∧ x < c + width.getD dx / 2 then 1 else p) _ _ _ (by simp)
    · exact fold_length (fun c x p => if c - width.getD dx / 2 ≤ x ∧ x < c + width.getD dx / 2 then x - c + width.getD dx / 2 else p) _ _ _ (by simp)
    · exact fold_length (fun c x p => p + Real.exp (-(x - c) ^ 2 / (2 * (width.getD dx / 2.355) ^ 2))) _ _ _ (by simp)
  obtain ⟨rfl, hl⟩ := hx
  refine ⟨hl, fun i x hi => ((xVec_get _ _ _ _).1 hi).2, fun i => ?_⟩
  unfold xVec arange
  simp only [List.length_map, List.length_range]
  rw [Int.lt_toNat, Int.lt_ceil, lt_div_iff₀ hdx]
  push_cast
  constructor <;> intro h <;> linarith

open Classical in
/-- C48 (square): a sample is 1 if it lies within half a width of some centre (right end excluded), else 0. -/
theorem C48_square (centers : List ℝ) (ref : ℝ) (width : Option ℝ) (shape : String) (hs : shape.toLower = "square") (dx xmax : ℝ) :
    ∃ plant xs, get1dPlant centers ref width shape dx xmax = .ok (plant, xs) ∧ ∀ (i : ℕ) (x : ℝ), xs[i]? = some x →
      plant[i]? = some (if ∃ c ∈ centers, c - ref - width.getD dx / 2 ≤ x ∧ x < c - ref + width.getD dx / 2 then 1 else 0) := by
  refine ⟨_, _, by unfold get1dPlant; simp only; rw [if_pos hs], ?_⟩
  intro i x hi
  have := fold_get (fun c x p => if c - width.getD dx / 2 ≤ x ∧ x < c + width.getD dx / 2 then 1 else p) (xVec xmax dx)
    (centers.map fun c => c - ref) ((xVec xmax dx).map fun _ => 0) i x 0 hi (by rw [List.getElem?_map, hi]; rfl)
  unfold markSquare
  rw [this]
  have e := fold_cover (fun c => c - width.getD dx / 2 ≤ x ∧ x < c + width.getD dx / 2) (centers.map fun c => c - ref) 0
  simp only [List.mem_map, exists_exists_and_eq_and] at e
  rw [← e]
  congr 1
  congr 1
  funext p c
  split_ifs <;> rfl

/-- C48 (triangle): values rise from 0 to the width across a site; where sites overlap the last one in the
list counts; 0 elsewhere. -/
theorem C48_triangle (centers : List ℝ) (ref : ℝ) (width : Option ℝ) (shape : String) (hs : shape.toLower = "triangle") (dx xmax : ℝ) :
    ∃ plant xs, get1dPlant centers ref width shape dx xmax = .ok (plant, xs) ∧ ∀ (i : ℕ) (x : ℝ), xs[i]? = some x →
      (∀ pre c post, centers = pre ++ c :: post → (c - ref - width.getD dx / 2 ≤ x ∧ x < c - ref + width.getD dx / 2) →
        (∀ d ∈ post, ¬ (d - ref - width.getD dx / 2 ≤ x ∧ x < d - ref + width.getD dx / 2)) →
        plant[i]? = some (x - (c - ref) + width.getD dx / 2)) ∧
      ((∀ c ∈ centers, ¬ (c - ref - width.getD dx / 2 ≤ x ∧ x < c - ref + width.getD dx / 2)) → plant[i]? = some 0) ∧
      ∃ v, plant[i]? = some v ∧ (0 < width.getD dx → 0 ≤ v ∧ v < width.getD dx) := by
  classical
  refine ⟨_, _, by unfold get1dPlant; simp only; rw [if_neg (by rw [hs]; decide), if_pos hs], ?_⟩
  intro i x hi
  have key := fold_get (fun c x p => if c - width.getD dx / 2 ≤ x ∧ x < c + width.getD dx / 2 then x - c + width.getD dx / 2 else p) (xVec xmax dx)
    (centers.map fun c => c - ref) ((xVec xmax dx).map fun _ => 0) i x 0 hi (by rw [List.getElem?_map, hi]; rfl)
  have e : (fun (p c : ℝ) => if c - width.getD dx / 2 ≤ x ∧ x < c + width.getD dx / 2 then x - c + width.getD dx / 2 else p) =
      fun p c => @ite _ (c - width.getD dx / 2 ≤ x ∧ x < c + width.getD dx / 2) (Classical.propDecidable _) (x - c + width.getD dx / 2) p := by
    funext p c; split_ifs <;> rfl
  obtain ⟨f1, f2⟩ := fold_last (fun c => c - width.getD dx / 2 ≤ x ∧ x < c + width.getD dx / 2) (fun c => x - c + width.getD dx / 2)
    (centers.map fun c => c - ref) 0
  unfold markTriangle
  rw [key, e]
  have p1 : ∀ pre c post, centers = pre ++ c :: post → (c - ref - width.getD dx / 2 ≤ x ∧ x < c - ref + width.getD dx / 2) →
        (∀ d ∈ post, ¬ (d - ref - width.getD dx / 2 ≤ x ∧ x < d - ref + width.getD dx / 2)) →
        some (List.foldl (fun p c => @ite _ (c - width.getD dx / 2 ≤ x ∧ x < c + width.getD dx / 2) (Classical.propDecidable _) (x - c + width.getD dx / 2) p) 0 (centers.map fun c => c - ref)) =
          some (x - (c - ref) + width.getD dx / 2) := by
    intro pre c post hc h1 h2
    rw [f1 (pre.map fun c => c - ref) (c - ref) (post.map fun c => c - ref) (by rw [hc]; simp) h1]
    intro d hd
    obtain ⟨d', hd', rfl⟩ := List.mem_map.1 hd
    exact h2 d' hd'
  have p2 : (∀ c ∈ centers, ¬ (c - ref - width.getD dx / 2 ≤ x ∧ x < c - ref + width.getD dx / 2)) →
      some (List.foldl (fun p c => @ite _ (c - width.getD dx / 2 ≤ x ∧ x < c + width.getD dx / 2) (Classical.propDecidable _) (x - c + width.getD dx / 2) p) 0 (centers.map fun c => c - ref)) =
          some 0 := by
    intro h
    rw [f2]
    intro d hd
    obtain ⟨d', hd', rfl⟩ := List.mem_map.1 hd
    exact h d' hd'
  refine ⟨p1, p2, ?_⟩
  by_cases hcov : ∃ c ∈ centers, c - ref - width.getD dx / 2 ≤ x ∧ x < c - ref + width.getD dx / 2
  · obtain ⟨pre, c, post, hc, h1, h2⟩ : ∃ pre c post, centers = pre ++ c :: post ∧
        (c - ref - width.getD dx / 2 ≤ x ∧ x < c - ref + width.getD dx / 2) ∧
        (∀ d ∈ post, ¬ (d - ref - width.getD dx / 2 ≤ x ∧ x < d - ref + width.getD dx / 2)) := by
      clear key f1 f2 p1 p2 e
      induction centers with
      | nil => obtain ⟨c, hc, -⟩ := hcov; simp at hc
      | cons a l ih =>
        by_cases hl : ∃ c ∈ l, c - ref - width.getD dx / 2 ≤ x ∧ x < c - ref + width.getD dx / 2
        · obtain ⟨pre, c, post, h, h1, h2⟩ := ih hl
          exact ⟨a :: pre, c, post, by rw [h]; rfl, h1, h2⟩
        · push Not at hl
          obtain ⟨c, hc, h1⟩ := hcov
          rcases List.mem_cons.1 hc with rfl | hc
          · exact ⟨[], c, l, rfl, h1, fun d hd hh => absurd hh.2 (not_lt.2 (hl d hd hh.1))⟩
          · exact absurd h1.2 (not_lt.2 (hl c hc h1.1))
    exact ⟨_, p1 pre c post hc h1 h2, fun hw => ⟨by linarith [h1.1], by linarith [h1.2]⟩⟩
  · push Not at hcov
    exact ⟨0, p2 (fun c hc hh => absurd hh.2 (not_lt.2 (hcov c hc hh.1))), fun hw => ⟨le_rfl, hw⟩⟩

/-- C48 (gaussian): the profile is the sum of the bumps. -/
theorem C48_gaussian (centers : List ℝ) (ref : ℝ) (width : Option ℝ) (shape : String) (hs : shape.toLower = "gaussian") (dx xmax : ℝ) :
    ∃ plant xs, get1dPlant centers ref width shape dx xmax = .ok (plant, xs) ∧ ∀ (i : ℕ) (x : ℝ), xs[i]? = some x →
      plant[i]? = some ((centers.map fun c => Real.exp (-(x - (c - ref)) ^ 2 / (2 * (width.getD dx / 2.355) ^ 2))).sum) := by
  refine ⟨_, _, by unfold get1dPlant; simp only; rw [if_neg (by rw [hs]; decide), if_neg (by rw [hs]; decide), if_pos hs], ?_⟩
  intro i x hi
  have := fold_get (fun c x p => p + Real.exp (-(x - c) ^ 2 / (2 * (width.getD dx / 2.355) ^ 2))) (xVec xmax dx)
    (centers.map fun c => c - ref) ((xVec xmax dx).map fun _ => 0) i x 0 hi (by rw [List.getElem?_map, hi]; rfl)
  unfold addGaussian
  rw [this, fold_add (fun c => Real.exp (-(x - c) ^ 2 / (2 * (width.getD dx / 2.355) ^ 2)))]
  rw [List.map_map, zero_add]
  rfl

/-- C48: any other shape is a ValueError. -/
theorem C48_invalid (centers : List ℝ) (ref : ℝ) (width : Option ℝ) (shape : String) (dx xmax : ℝ)
    (h : shape.toLower ≠ "square" ∧ shape.toLower ≠ "triangle" ∧ shape.toLower ≠ "gaussian") :
    Raises (get1dPlant centers ref width shape dx xmax) .valueError := by
  unfold Raises get1dPlant
  simp only
  rw [if_neg h.1, if_neg h.2.1, if_neg h.2.2]

theorem ext_plants {centers centers' : List ℝ} {ref : ℝ} {width : Option ℝ} {shape : String} {dx xmax : ℝ} {p p' xs xs' : List ℝ}
    (hdx : 0 < dx) (h : get1dPlant centers ref width shape dx xmax = .ok (p, xs)) (h' : get1dPlant centers' ref width shape dx xmax = .ok (p', xs'))
    (he : xs = xs') (hg : ∀ (i : ℕ) (x : ℝ), xs[i]? = some x → p[i]? = p'[i]?) : p = p' := by
  have l1 := (C48_grid _ _ _ _ _ _ hdx _ _ h).1
  have l2 := (C48_grid _ _ _ _ _ _ hdx _ _ h').1
  apply List.ext_getElem?
  intro i
  by_cases hi : i < xs.length
  · exact hg i xs[i] (List.getElem?_eq_getElem hi)
  · rw [List.getElem?_eq_none (by omega), List.getElem?_eq_none (by subst he; omega)]

/-- C48: for square and gaussian sites the order of the centres does not matter. -/
theorem C48_order (centers centers' : List ℝ) (hp : centers.Perm centers') (ref : ℝ) (width : Option ℝ) (shape : String)
    (hs : shape.toLower = "square" ∨ shape.toLower = "gaussian") (dx xmax : ℝ) (hdx : 0 < dx) :
    get1dPlant centers ref width shape dx xmax = get1dPlant centers' ref width shape dx xmax := by
  classical
  have hgrid : ∀ cs plant xs, get1dPlant cs ref width shape dx xmax = .ok (plant, xs) → xs = xVec xmax dx := by
    intro cs plant xs h
    unfold get1dPlant at h
    simp only at h
    split_ifs at h <;> exact (Prod.mk.inj (Except.ok.inj h)).2.symm
  rcases hs with hs | hs
  · obtain ⟨p, xs, h, hg⟩ := C48_square centers ref width shape hs dx xmax
    obtain ⟨p', xs', h', hg'⟩ := C48_square centers' ref width shape hs dx xmax
    have hx : xs = xs' := (hgrid _ _ _ h).trans (hgrid _ _ _ h').symm
    subst hx
    have : p = p' := by
      apply ext_plants hdx h h' rfl
      intro i x hi
      rw [hg i x hi, hg' i x hi]
      simp only [hp.mem_iff]
    rw [h, h', this]
  · obtain ⟨p, xs, h, hg⟩ := C48_gaussian centers ref width shape hs dx xmax
    obtain ⟨p', xs', h', hg'⟩ := C48_gaussian centers' ref width shape hs dx xmax
    have hx : xs = xs' := (hgrid _ _ _ h).trans (hgrid _ _ _ h').symm
    subst hx
    have : p = p' := by
      apply ext_plants hdx h h' rfl
      intro i x hi
      rw [hg i x hi, hg' i x hi, (hp.map _).sum_eq]
    rw [h, h', this]

/-- C48: with the default width a centre between the first and last grid point marks exactly one
sample, at most half a step away. -/
theorem C48_one_sample (c ref : ℝ) (shape : String) (hs : shape.toLower = "square") (dx xmax : ℝ) (hdx : 0 < dx) (plant xs : List ℝ)
    (h : get1dPlant [c] ref none shape dx xmax = .ok (plant, xs)) (hlo : ∃ x ∈ xs, x ≤ c - ref) (hhi : ∃ x ∈ xs, c - ref ≤ x) :
    ∃ (i : ℕ) (x : ℝ), xs[i]? = some x ∧ |x - (c - ref)| ≤ dx / 2 ∧ plant[i]? = some 1 ∧
      ∀ j : ℕ, j < xs.length → j ≠ i → plant[j]? = some 0 := by
  classical
  obtain ⟨p', xs', h', hg⟩ := C48_square [c] ref none shape hs dx xmax
  rw [h] at h'
  obtain ⟨rfl, rfl⟩ := Prod.mk.inj (Except.ok.inj h')
  obtain ⟨-, hx, hlen⟩ := C48_grid _ _ _ _ _ _ hdx _ _ h
  obtain ⟨a, ha, hac⟩ := hlo
  obtain ⟨b, hb, hbc⟩ := hhi
  obtain ⟨ia, hia⟩ := List.mem_iff_getElem?.1 ha
  obtain ⟨ib, hib⟩ := List.mem_iff_getElem?.1 hb
  have ea := hx _ _ hia
  have eb := hx _ _ hib
  set x0 : ℝ := (⌊-xmax / 2⌋ : ℝ) with hx0
  simp only [Option.getD_none, List.mem_singleton, exists_eq_left] at hg
  set t := (c - ref - dx / 2 - x0) / dx with ht
  have htd : t * dx = c - ref - dx / 2 - x0 := div_mul_cancel₀ _ hdx.ne'
  have hia0 : (0 : ℝ) ≤ ia := Nat.cast_nonneg _
  have ht0 : -1 < t := by
    by_contra hc
    push Not at hc
    have : t * dx ≤ -1 * dx := mul_le_mul_of_nonneg_right hc hdx.le
    nlinarith [mul_nonneg hia0 hdx.le]
  have hceil : 0 ≤ ⌈t⌉ := by
    have : (-1 : ℤ) < ⌈t⌉ := by rw [Int.lt_ceil]; exact_mod_cast ht0
    omega
  obtain ⟨i, hi⟩ : ∃ i : ℕ, (i : ℤ) = ⌈t⌉ := ⟨⌈t⌉.toNat, Int.toNat_of_nonneg hceil⟩
  have hir : (i : ℝ) = (⌈t⌉ : ℝ) := by exact_mod_cast hi
  have h1 : t ≤ i := by rw [hir]; exact Int.le_ceil t
  have h2 : (i : ℝ) < t + 1 := by rw [hir]; exact Int.ceil_lt_add_one t
  have h1' := mul_le_mul_of_nonneg_right h1 hdx.le
  have h2' := mul_lt_mul_of_pos_right h2 hdx
  rw [htd] at h1'
  rw [add_mul, htd, one_mul] at h2'
  have hile : i ≤ ib := by
    by_contra hc
    push Not at hc
    have : (ib : ℝ) + 1 ≤ i := by exact_mod_cast hc
    have := mul_le_mul_of_nonneg_right this hdx.le
    nlinarith
  have hil : i < xs.length := by
    have := (List.getElem?_eq_some_iff.1 hib).1
    omega
  have hxi : xs[i]? = some (x0 + i * dx) := by
    rw [List.getElem?_eq_getElem hil]
    congr 1
    exact hx i _ (List.getElem?_eq_getElem hil)
  refine ⟨i, x0 + i * dx, hxi, by rw [abs_le]; constructor <;> linarith, ?_, ?_⟩
  · rw [hg i _ hxi, if_pos ⟨by linarith, by linarith⟩]
  · intro j hj hne
    have hxj : xs[j]? = some (x0 + j * dx) := by
      rw [List.getElem?_eq_getElem hj]
      congr 1
      exact hx j _ (List.getElem?_eq_getElem hj)
    rw [hg j _ hxj, if_neg]
    rintro ⟨g1, g2⟩
    rcases lt_or_gt_of_ne hne with hlt | hgt
    · have : (j : ℝ) + 1 ≤ i := by exact_mod_cast hlt
      have := mul_le_mul_of_nonneg_right this hdx.le
      linarith
    · have : (i : ℝ) + 1 ≤ j := by exact_mod_cast hgt
      have := mul_le_mul_of_nonneg_right this hdx.le
      linarith

example : ∃ p xs, get1dPlant [10, 12] 10 none "Square" 1 10 = .ok (p, xs) :=
  let ⟨p, xs, h, _⟩ := C48_square [10, 12] 10 none "Square" (by decide +kernel) 1 10
  ⟨p, xs, h⟩

end SST.Props.Filters
