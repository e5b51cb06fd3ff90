import Verif.Model.CloudDemo
import Verif.Spec.CloudDemo
import Verif.Props.CmvXcorr
import Verif.Props.CmvGeom
import Verif.Props.CloudTs

/-!
# Properties C182–C185: series of a plant read from a synthetic cloud field
-/

namespace SST.Props.CloudDemo
open SST SST.Cloud SST.Spatial SST.CloudDemo SST.Spec

variable {ι α : Type}

/-! ## Largest and smallest entry -/

theorem lmax_spec : ∀ {l : List ℝ}, l ≠ [] → lmax l ∈ l ∧ ∀ x ∈ l, x ≤ lmax l
  | [], h => absurd rfl h
  | [a], _ => ⟨by simp [lmax], by simp [lmax]⟩
  | a :: b :: l, _ => by
    obtain ⟨h1, h2⟩ := lmax_spec (l := b :: l) (by simp)
    rw [lmax]
    constructor
    · rcases max_choice a (lmax (b :: l)) with h | h <;> rw [h]
      · exact List.mem_cons_self
      · exact List.mem_cons_of_mem _ h1
    · intro x hx
      rcases List.mem_cons.1 hx with rfl | hx
      · exact le_max_left _ _
      · exact (h2 x hx).trans (le_max_right _ _)

theorem lmin_spec : ∀ {l : List ℝ}, l ≠ [] → lmin l ∈ l ∧ ∀ x ∈ l, lmin l ≤ x
  | [], h => absurd rfl h
  | [a], _ => ⟨by simp [lmin], by simp [lmin]⟩
  | a :: b :: l, _ => by
    obtain ⟨h1, h2⟩ := lmin_spec (l := b :: l) (by simp)
    rw [lmin]
    constructor
    · rcases min_choice a (lmin (b :: l)) with h | h <;> rw [h]
      · exact List.mem_cons_self
      · exact List.mem_cons_of_mem _ h1
    · intro x hx
      rcases List.mem_cons.1 hx with rfl | hx
      · exact min_le_left _ _
      · exact (min_le_right _ _).trans (h2 x hx)

theorem lmax_eq {l : List ℝ} {v : ℝ} (h : v ∈ l) (h' : ∀ x ∈ l, x ≤ v) : lmax l = v := by
  obtain ⟨h1, h2⟩ := lmax_spec (List.ne_nil_of_mem h)
  exact le_antisymm (h' _ h1) (h2 _ h)

theorem lmin_eq {l : List ℝ} {v : ℝ} (h : v ∈ l) (h' : ∀ x ∈ l, v ≤ x) : lmin l = v := by
  obtain ⟨h1, h2⟩ := lmin_spec (List.ne_nil_of_mem h)
  exact le_antisymm (h2 _ h) (h' _ h1)

/-- A coordinate takes a largest and a smallest value at the sensors. -/
theorem extremes (g : Vec → ℝ) {pos : List (ι × Vec)} (h : pos ≠ []) :
    ∃ lo ∈ pos, ∃ hi ∈ pos, ∀ p ∈ pos, g lo.2 ≤ g p.2 ∧ g p.2 ≤ g hi.2 := by
  have hne : pos.map (fun p => g p.2) ≠ [] := by simpa using h
  obtain ⟨a, b⟩ := lmin_spec hne
  obtain ⟨c, d⟩ := lmax_spec hne
  obtain ⟨lo, hlo, elo⟩ := List.mem_map.1 a
  obtain ⟨hi, hhi, ehi⟩ := List.mem_map.1 c
  refine ⟨lo, hlo, hi, hhi, fun p hp => ⟨?_, ?_⟩⟩
  · rw [elo]; exact b _ (List.mem_map.2 ⟨p, hp, rfl⟩)
  · rw [ehi]; exact d _ (List.mem_map.2 ⟨p, hp, rfl⟩)

/-! ## The procedure in coordinates along and across the motion -/

theorem rotate_neg (v : Vec) (dir : ℝ) : rotate v (-dir) = (downstream dir v, across dir v) := by
  unfold rotate downstream across
  rw [Real.cos_neg, Real.sin_neg]
  ext <;> simp <;> ring

/-- Rows and columns read, in terms of the extreme coordinates. -/
theorem simKt_eq (f : ℕ → ℕ → α) (pos : List (ι × Vec)) (spd dir : ℝ) (T : ℕ) (hs : 0 < spd) (x0 x1 y0 y1 : ι × Vec) (hx0 : x0 ∈ pos) (hx1 : x1 ∈ pos) (hy0 : y0 ∈ pos) (hy1 : y1 ∈ pos)
    (hx : ∀ p ∈ pos, downstream dir x0.2 ≤ downstream dir p.2 ∧ downstream dir p.2 ≤ downstream dir x1.2) (hy : ∀ p ∈ pos, across dir y0.2 ≤ across dir p.2 ∧ across dir p.2 ≤ across dir y1.2) :
    simKt f pos spd dir T = pos.mapM fun p => (readSensor f ⌈(downstream dir x1.2 - downstream dir x0.2) / spd + T⌉.toNat ⌈(across dir y1.2 - across dir y0.2) / spd⌉.toNat T
      (⌊(downstream dir x1.2 - downstream dir p.2) / spd⌋, ⌊(across dir p.2 - across dir y0.2) / spd⌋)).map fun s => (p.1, s) := by
  have eX : colX (turned pos dir) = pos.map fun p => downstream dir p.2 := by
    unfold colX turned; rw [List.map_map]; apply List.map_congr_left; intro p _; simp [rotate_neg]
  have eY : colY (turned pos dir) = pos.map fun p => across dir p.2 := by
    unfold colY turned; rw [List.map_map]; apply List.map_congr_left; intro p _; simp [rotate_neg]
  have mX : lmin (colX (turned pos dir)) = downstream dir x0.2 := by
    rw [eX]; apply lmin_eq (List.mem_map.2 ⟨x0, hx0, rfl⟩)
    intro v hv; obtain ⟨p, hp, rfl⟩ := List.mem_map.1 hv; exact (hx p hp).1
  have mY : lmin (colY (turned pos dir)) = across dir y0.2 := by
    rw [eY]; apply lmin_eq (List.mem_map.2 ⟨y0, hy0, rfl⟩)
    intro v hv; obtain ⟨p, hp, rfl⟩ := List.mem_map.1 hv; exact (hy p hp).1
  have ew : fromCorner (turned pos dir) = pos.map fun p => (p.1, (downstream dir p.2 - downstream dir x0.2, across dir p.2 - across dir y0.2)) := by
    unfold fromCorner
    rw [mX, mY]
    unfold turned
    rw [List.map_map]; apply List.map_congr_left; intro p _; simp [rotate_neg]
  have wX : colX (fromCorner (turned pos dir)) = pos.map fun p => downstream dir p.2 - downstream dir x0.2 := by
    rw [ew]; unfold colX; rw [List.map_map]; rfl
  have wY : colY (fromCorner (turned pos dir)) = pos.map fun p => across dir p.2 - across dir y0.2 := by
    rw [ew]; unfold colY; rw [List.map_map]; rfl
  have mX0 : lmin (colX (fromCorner (turned pos dir))) = 0 := by
    rw [wX]; apply lmin_eq (List.mem_map.2 ⟨x0, hx0, by ring⟩)
    intro v hv; obtain ⟨p, hp, rfl⟩ := List.mem_map.1 hv; linarith [(hx p hp).1]
  have mY0 : lmin (colY (fromCorner (turned pos dir))) = 0 := by
    rw [wY]; apply lmin_eq (List.mem_map.2 ⟨y0, hy0, by ring⟩)
    intro v hv; obtain ⟨p, hp, rfl⟩ := List.mem_map.1 hv; linarith [(hy p hp).1]
  have MX : lmax (colX (fromCorner (turned pos dir))) = downstream dir x1.2 - downstream dir x0.2 := by
    rw [wX]; apply lmax_eq (List.mem_map.2 ⟨x1, hx1, rfl⟩)
    intro v hv; obtain ⟨p, hp, rfl⟩ := List.mem_map.1 hv; linarith [(hx p hp).2]
  have MY : lmax (colY (fromCorner (turned pos dir))) = across dir y1.2 - across dir y0.2 := by
    rw [wY]; apply lmax_eq (List.mem_map.2 ⟨y1, hy1, rfl⟩)
    intro v hv; obtain ⟨p, hp, rfl⟩ := List.mem_map.1 hv; linarith [(hy p hp).2]
  have esz : fieldSize (fromCorner (turned pos dir)) spd T = (⌈(downstream dir x1.2 - downstream dir x0.2) / spd + T⌉.toNat, ⌈(across dir y1.2 - across dir y0.2) / spd⌉.toNat) := by
    unfold fieldSize
    rw [MX, MY, mX0, mY0, sub_zero, sub_zero, abs_of_nonneg (by linarith [(hx x1 hx1).1]), abs_of_nonneg (by linarith [(hy y1 hy1).1])]
  have ecc : fromCorner (fromCorner (turned pos dir)) = fromCorner (turned pos dir) := by
    have e : fromCorner (fromCorner (turned pos dir)) = (fromCorner (turned pos dir)).map fun p => (p.1, (p.2.1 - lmin (colX (fromCorner (turned pos dir))), p.2.2 - lmin (colY (fromCorner (turned pos dir))))) := rfl
    rw [e, mX0, mY0]
    simp
  have et : inSeconds (fromCorner (turned pos dir)) spd = pos.map fun p => (p.1, ((downstream dir p.2 - downstream dir x0.2) / spd, (across dir p.2 - across dir y0.2) / spd)) := by
    rw [ew]; unfold inSeconds; rw [List.map_map]; rfl
  have Mt : lmax (colX (inSeconds (fromCorner (turned pos dir)) spd)) = (downstream dir x1.2 - downstream dir x0.2) / spd := by
    rw [et]; unfold colX; rw [List.map_map]
    apply lmax_eq (List.mem_map.2 ⟨x1, hx1, rfl⟩)
    intro v hv; obtain ⟨p, hp, rfl⟩ := List.mem_map.1 hv
    simp only [Function.comp]
    exact div_le_div_of_nonneg_right (by linarith [(hx p hp).2]) hs.le
  have hne : ¬ (pos = [] ∨ spd = 0) := by
    rintro (h | h)
    · rw [h] at hx0; simp at hx0
    · exact hs.ne' h
  unfold simKt
  rw [if_neg hne]
  simp only
  rw [ecc, esz]
  unfold startCell
  rw [Mt, et, List.mapM_map]
  have key : ∀ p ∈ pos, ((readSensor f ⌈(downstream dir x1.2 - downstream dir x0.2) / spd + T⌉.toNat ⌈(across dir y1.2 - across dir y0.2) / spd⌉.toNat T
      (pyInt ((downstream dir x1.2 - downstream dir x0.2) / spd - (downstream dir p.2 - downstream dir x0.2) / spd), pyInt ((across dir p.2 - across dir y0.2) / spd))).map fun s => (p.1, s)) =
      (readSensor f ⌈(downstream dir x1.2 - downstream dir x0.2) / spd + T⌉.toNat ⌈(across dir y1.2 - across dir y0.2) / spd⌉.toNat T
      (⌊(downstream dir x1.2 - downstream dir p.2) / spd⌋, ⌊(across dir p.2 - across dir y0.2) / spd⌋)).map fun s => (p.1, s) := by
    intro p hp
    have e1 : (downstream dir x1.2 - downstream dir x0.2) / spd - (downstream dir p.2 - downstream dir x0.2) / spd = (downstream dir x1.2 - downstream dir p.2) / spd := by ring
    rw [e1, CloudTs.pyInt_nonneg (div_nonneg (by linarith [(hx p hp).2]) hs.le), CloudTs.pyInt_nonneg (div_nonneg (by linarith [(hy p hp).1]) hs.le)]
  have gen : ∀ (l : List (ι × Vec)) (u v : ι × Vec → Except PyErr (ι × List α)), (∀ p ∈ l, u p = v p) → l.mapM u = l.mapM v := by
    intro l u v
    induction l with
    | nil => intro _; rfl
    | cons a l ih =>
      intro h
      rw [List.mapM_cons, List.mapM_cons, h a (by simp), ih fun p hp => h p (by simp [hp])]
  exact gen _ _ _ key

/-- Reading from a cell with nonnegative coordinates. -/
theorem readSensor_ok (f : ℕ → ℕ → α) (m n T : ℕ) (x y : ℤ) (hx : 0 ≤ x) (hy : 0 ≤ y) (s : List α) :
    readSensor f m n T (x, y) = .ok s ↔ y < n ∧ x + T + 1 ≤ m ∧ s = (List.range (T + 1)).map fun (k : ℕ) => f (x.toNat + k) y.toNat := by
  have e1 : sliceIdx m x = min x.toNat m := by unfold sliceIdx; rw [if_neg (by omega)]; omega
  have e2 : sliceIdx m (x + T + 1) = min (x.toNat + T + 1) m := by unfold sliceIdx; rw [if_neg (by omega)]; omega
  unfold readSensor
  simp only
  rw [e1, e2]
  by_cases hyn : y < n
  · have ey : (if y < 0 then y + n else y) = y := if_neg (by omega)
    rw [if_neg (by push Not; constructor <;> omega), ey]
    by_cases hb : min (x.toNat + T + 1) m - min x.toNat m = T + 1
    · rw [if_pos hb, hb]
      have : min x.toNat m = x.toNat := by omega
      rw [this, Except.ok.injEq]
      constructor
      · intro h; exact ⟨hyn, by omega, h.symm⟩
      · intro h; exact h.2.2.symm
    · rw [if_neg hb]
      constructor
      · intro h; cases h
      · intro h; omega
  · rw [if_pos (Or.inr (by omega))]
    constructor
    · intro h; cases h
    · intro h; exact absurd h.1 hyn

/-- A run that succeeds, sensor by sensor. -/
theorem simKt_ok (f : ℕ → ℕ → α) (pos : List (ι × Vec)) (spd dir : ℝ) (T : ℕ) (hs : 0 < spd) (x0 x1 y0 y1 : ι × Vec) (hx0 : x0 ∈ pos) (hx1 : x1 ∈ pos) (hy0 : y0 ∈ pos) (hy1 : y1 ∈ pos)
    (hx : ∀ p ∈ pos, downstream dir x0.2 ≤ downstream dir p.2 ∧ downstream dir p.2 ≤ downstream dir x1.2) (hy : ∀ p ∈ pos, across dir y0.2 ≤ across dir p.2 ∧ across dir p.2 ≤ across dir y1.2) (r : List (ι × List α)) :
    simKt f pos spd dir T = .ok r ↔ List.Forall₂ (fun p q => ⌊(across dir p.2 - across dir y0.2) / spd⌋ < ⌈(across dir y1.2 - across dir y0.2) / spd⌉ ∧
      ⌊(downstream dir x1.2 - downstream dir p.2) / spd⌋ + 1 ≤ ⌈(downstream dir x1.2 - downstream dir x0.2) / spd⌉ ∧
      q = (p.1, (List.range (T + 1)).map fun (k : ℕ) => f (⌊(downstream dir x1.2 - downstream dir p.2) / spd⌋.toNat + k) ⌊(across dir p.2 - across dir y0.2) / spd⌋.toNat)) pos r := by
  rw [simKt_eq f pos spd dir T hs x0 x1 y0 y1 hx0 hx1 hy0 hy1 hx hy, SST.Props.Cmv.mapM_forall₂]
  have cx : 0 ≤ ⌈(downstream dir x1.2 - downstream dir x0.2) / spd⌉ := Int.ceil_nonneg (div_nonneg (by linarith [(hx x1 hx1).1]) hs.le)
  have cy : 0 ≤ ⌈(across dir y1.2 - across dir y0.2) / spd⌉ := Int.ceil_nonneg (div_nonneg (by linarith [(hy y1 hy1).1]) hs.le)
  have ec : ⌈(downstream dir x1.2 - downstream dir x0.2) / spd + T⌉ = ⌈(downstream dir x1.2 - downstream dir x0.2) / spd⌉ + T := by
    exact_mod_cast Int.ceil_add_natCast _ T
  rw [ec]
  have key : ∀ p ∈ pos, ∀ q : ι × List α, ((readSensor f (⌈(downstream dir x1.2 - downstream dir x0.2) / spd⌉ + T).toNat ⌈(across dir y1.2 - across dir y0.2) / spd⌉.toNat T
      (⌊(downstream dir x1.2 - downstream dir p.2) / spd⌋, ⌊(across dir p.2 - across dir y0.2) / spd⌋)).map fun s => (p.1, s)) = .ok q ↔
      (⌊(across dir p.2 - across dir y0.2) / spd⌋ < ⌈(across dir y1.2 - across dir y0.2) / spd⌉ ∧
      ⌊(downstream dir x1.2 - downstream dir p.2) / spd⌋ + 1 ≤ ⌈(downstream dir x1.2 - downstream dir x0.2) / spd⌉ ∧
      q = (p.1, (List.range (T + 1)).map fun (k : ℕ) => f (⌊(downstream dir x1.2 - downstream dir p.2) / spd⌋.toNat + k) ⌊(across dir p.2 - across dir y0.2) / spd⌋.toNat)) := by
    intro p hp q
    have fx : 0 ≤ ⌊(downstream dir x1.2 - downstream dir p.2) / spd⌋ := Int.floor_nonneg.2 (div_nonneg (by linarith [(hx p hp).2]) hs.le)
    have fy : 0 ≤ ⌊(across dir p.2 - across dir y0.2) / spd⌋ := Int.floor_nonneg.2 (div_nonneg (by linarith [(hy p hp).1]) hs.le)
    have ro := readSensor_ok f (⌈(downstream dir x1.2 - downstream dir x0.2) / spd⌉ + T).toNat ⌈(across dir y1.2 - across dir y0.2) / spd⌉.toNat T _ _ fx fy
    constructor
    · intro h
      cases hr : readSensor f (⌈(downstream dir x1.2 - downstream dir x0.2) / spd⌉ + T).toNat ⌈(across dir y1.2 - across dir y0.2) / spd⌉.toNat T
        (⌊(downstream dir x1.2 - downstream dir p.2) / spd⌋, ⌊(across dir p.2 - across dir y0.2) / spd⌋) with
      | error e => rw [hr] at h; cases h
      | ok s =>
        rw [hr] at h
        obtain ⟨h1, h2, h3⟩ := (ro s).1 hr
        have hq : q = (p.1, s) := by
          have := Except.ok.inj h
          exact this.symm
        rw [hq, h3]
        exact ⟨by omega, by omega, rfl⟩
    · rintro ⟨h1, h2, rfl⟩
      rw [(ro _).2 ⟨by omega, by omega, rfl⟩]
      rfl
  have gen : ∀ (l : List (ι × Vec)) (r : List (ι × List α)) (u v : ι × Vec → ι × List α → Prop), (∀ p ∈ l, ∀ q, u p q ↔ v p q) → (List.Forall₂ u l r ↔ List.Forall₂ v l r) := by
    intro l
    induction l with
    | nil => intro r u v _; simp
    | cons a l ih =>
      intro r u v h
      cases r with
      | nil => simp
      | cons b r => rw [List.forall₂_cons, List.forall₂_cons, h a (by simp), ih r u v fun p hp => h p (by simp [hp])]
  exact gen pos r _ _ key

/-! ## C182 -/

theorem floor_lt_ceil_iff' (x : ℝ) : ⌊x⌋ < ⌈x⌉ ↔ ¬ ∃ k : ℤ, x = k := by
  constructor
  · rintro h ⟨k, rfl⟩
    simp at h
  · intro h
    rw [Int.floor_lt]
    rcases lt_or_eq_of_le ((Int.floor_le x).trans (Int.le_ceil x)) with h1 | h1
    · have : (⌊x⌋ : ℤ) < ⌈x⌉ := by exact_mod_cast h1
      have h2 : (⌊x⌋ : ℤ) + 1 ≤ ⌈x⌉ := this
      have h3 : ((⌊x⌋ : ℤ) : ℝ) + 1 ≤ ⌈x⌉ := by exact_mod_cast h2
      linarith [Int.lt_floor_add_one x]
    · exfalso
      apply h
      exact ⟨⌈x⌉, le_antisymm (Int.le_ceil x) (h1 ▸ Int.floor_le x)⟩

theorem whole_iff {e spd : ℝ} (hs : 0 < spd) : WholeSeconds e spd ↔ ∃ k : ℤ, e / spd = k := by
  unfold WholeSeconds
  constructor <;> rintro ⟨k, h⟩ <;> refine ⟨k, ?_⟩
  · rw [h]; field_simp
  · rw [← h]; field_simp

theorem extent_unique {g : Vec → ℝ} {pos : List (ι × Vec)} {e : ℝ} (h : Extent g pos e) {lo hi : ι × Vec} (hlo : lo ∈ pos) (hhi : hi ∈ pos)
    (hb : ∀ p ∈ pos, g lo.2 ≤ g p.2 ∧ g p.2 ≤ g hi.2) : e = g hi.2 - g lo.2 := by
  obtain ⟨⟨p, hp, q, hq, rfl⟩, h2⟩ := h
  apply le_antisymm
  · linarith [(hb p hp).1, (hb q hq).2]
  · exact h2 lo hlo hi hhi

/-- C182, the part that holds: the series of all sensors can be read from the field exactly if the extents of the plant along and across
the motion are not whole numbers of seconds of cloud motion; every sensor then has a series of `T + 1` samples, in the order of the
sensors. -/
theorem C182_sampled_partial (f : ℕ → ℕ → α) (pos : List (ι × Vec)) (spd dir : ℝ) (T : ℕ) (hs : 0 < spd) (ex ey : ℝ) (hex : Extent (downstream dir) pos ex) (hey : Extent (across dir) pos ey) :
    ((∃ r, simKt f pos spd dir T = .ok r) ↔ ¬ WholeSeconds ex spd ∧ ¬ WholeSeconds ey spd) ∧
    ∀ r, simKt f pos spd dir T = .ok r → r.map Prod.fst = pos.map Prod.fst ∧ ∀ q ∈ r, q.2.length = T + 1 := by
  have hne : pos ≠ [] := by
    obtain ⟨⟨p, hp, -⟩, -⟩ := hex
    exact List.ne_nil_of_mem hp
  obtain ⟨x0, hx0, x1, hx1, hx⟩ := extremes (downstream dir) hne
  obtain ⟨y0, hy0, y1, hy1, hy⟩ := extremes (across dir) hne
  have ok := simKt_ok f pos spd dir T hs x0 x1 y0 y1 hx0 hx1 hy0 hy1 hx hy
  have eX := extent_unique hex hx0 hx1 hx
  have eY := extent_unique hey hy0 hy1 hy
  constructor
  · rw [whole_iff hs, whole_iff hs, ← floor_lt_ceil_iff', ← floor_lt_ceil_iff', eX, eY]
    constructor
    · rintro ⟨r, hr⟩
      have h := (ok r).1 hr
      have all : ∀ p ∈ pos, ∃ q, ⌊(across dir p.2 - across dir y0.2) / spd⌋ < ⌈(across dir y1.2 - across dir y0.2) / spd⌉ ∧
          ⌊(downstream dir x1.2 - downstream dir p.2) / spd⌋ + 1 ≤ ⌈(downstream dir x1.2 - downstream dir x0.2) / spd⌉ ∧
          q = (p.1, (List.range (T + 1)).map fun (k : ℕ) => f (⌊(downstream dir x1.2 - downstream dir p.2) / spd⌋.toNat + k) ⌊(across dir p.2 - across dir y0.2) / spd⌋.toNat) := by
        intro p hp
        obtain ⟨i, hi, rfl⟩ := List.getElem_of_mem hp
        exact ⟨_, h.get (by simpa using hi) (by rw [← h.length_eq]; exact hi)⟩
      obtain ⟨-, -, h1, -⟩ := all x0 hx0
      obtain ⟨-, h2, -⟩ := all y1 hy1
      exact ⟨by omega, h2⟩
    · rintro ⟨h1, h2⟩
      refine ⟨pos.map fun p => (p.1, (List.range (T + 1)).map fun (k : ℕ) => f (⌊(downstream dir x1.2 - downstream dir p.2) / spd⌋.toNat + k) ⌊(across dir p.2 - across dir y0.2) / spd⌋.toNat), (ok _).2 ?_⟩
      rw [List.forall₂_map_right_iff, List.forall₂_same]
      intro p hp
      refine ⟨?_, ?_, rfl⟩
      · refine lt_of_le_of_lt (Int.floor_le_floor (div_le_div_of_nonneg_right ?_ hs.le)) h2
        linarith [(hy p hp).2]
      · have : ⌊(downstream dir x1.2 - downstream dir p.2) / spd⌋ ≤ ⌊(downstream dir x1.2 - downstream dir x0.2) / spd⌋ :=
          Int.floor_le_floor (div_le_div_of_nonneg_right (by linarith [(hx p hp).1]) hs.le)
        omega
  · intro r hr
    have h := (ok r).1 hr
    constructor
    · apply List.ext_getElem (by simp [h.length_eq])
      intro i h1 h2
      rw [List.length_map] at h1 h2
      have := h.get (i := i) h2 h1
      rw [List.getElem_map, List.getElem_map]
      simp only [List.get_eq_getElem] at this
      rw [this.2.2]
    · intro q hq
      obtain ⟨i, hi, rfl⟩ := List.getElem_of_mem hq
      have := h.get (i := i) (by rw [h.length_eq]; exact hi) hi
      simp only [List.get_eq_getElem] at this
      rw [this.2.2]
      simp

/-- C182 violated: sensors in a line along the motion (a single sensor, for instance) cannot be sampled, whatever the field, and neither
can sensors in a line across it. -/
theorem C182_violated_line (f : ℕ → ℕ → α) (pos : List (ι × Vec)) (spd dir : ℝ) (T : ℕ) (hs : 0 < spd)
    (hl : (∀ p ∈ pos, ∀ q ∈ pos, across dir p.2 = across dir q.2) ∨ (∀ p ∈ pos, ∀ q ∈ pos, downstream dir p.2 = downstream dir q.2)) :
    ∀ r, simKt f pos spd dir T ≠ .ok r := by
  intro r hr
  have hne : pos ≠ [] := by
    rintro rfl
    simp [simKt] at hr
  obtain ⟨x0, hx0, x1, hx1, hx⟩ := extremes (downstream dir) hne
  obtain ⟨y0, hy0, y1, hy1, hy⟩ := extremes (across dir) hne
  have hex : Extent (downstream dir) pos (downstream dir x1.2 - downstream dir x0.2) := ⟨⟨x0, hx0, x1, hx1, rfl⟩, fun p hp q hq => by linarith [(hx p hp).1, (hx q hq).2]⟩
  have hey : Extent (across dir) pos (across dir y1.2 - across dir y0.2) := ⟨⟨y0, hy0, y1, hy1, rfl⟩, fun p hp q hq => by linarith [(hy p hp).1, (hy q hq).2]⟩
  obtain ⟨h1, h2⟩ := (C182_sampled_partial f pos spd dir T hs _ _ hex hey).1.1 ⟨r, hr⟩
  rcases hl with h | h
  · exact h2 ⟨0, by rw [h y1 hy1 y0 hy0]; simp⟩
  · exact h1 ⟨0, by rw [h x1 hx1 x0 hx0]; simp⟩

/-! ## C183, C184 -/

/-- The series of a sensor of a run that succeeds: the cells from `(⌊a - along⌋, ⌊across - b⌋)` on. -/
theorem series_of (f : ℕ → ℕ → α) (pos : List (ι × Vec)) (spd dir : ℝ) (T : ℕ) (hs : 0 < spd) (r : List (ι × List α)) (h : simKt f pos spd dir T = .ok r) :
    ∃ a b : ℝ, (∀ p ∈ pos, downstream dir p.2 ≤ a ∧ b ≤ across dir p.2) ∧ ∀ i (hi : i < pos.length), ∃ hi' : i < r.length,
      r[i] = (pos[i].1, (List.range (T + 1)).map fun (k : ℕ) => f (⌊(a - downstream dir pos[i].2) / spd⌋.toNat + k) ⌊(across dir pos[i].2 - b) / spd⌋.toNat) := by
  have hne : pos ≠ [] := by
    rintro rfl
    simp [simKt] at h
  obtain ⟨x0, hx0, x1, hx1, hx⟩ := extremes (downstream dir) hne
  obtain ⟨y0, hy0, y1, hy1, hy⟩ := extremes (across dir) hne
  have ok := (simKt_ok f pos spd dir T hs x0 x1 y0 y1 hx0 hx1 hy0 hy1 hx hy r).1 h
  refine ⟨downstream dir x1.2, across dir y0.2, fun p hp => ⟨(hx p hp).2, (hy p hp).1⟩, fun i hi => ⟨ok.length_eq ▸ hi, ?_⟩⟩
  have := ok.get (i := i) hi (ok.length_eq ▸ hi)
  simpa only [List.get_eq_getElem] using this.2.2

theorem floor_sub_near (x y : ℝ) : |((⌊x⌋ - ⌊y⌋ : ℤ) : ℝ) - (x - y)| < 1 := by
  rw [abs_lt]
  push_cast
  constructor <;> linarith [Int.floor_le x, Int.lt_floor_add_one x, Int.floor_le y, Int.lt_floor_add_one y]

/-- C183: of two sensors in a line along the motion the one downwind records the series of the other one later, by a whole number of
samples that differs from the travel time of the clouds by less than one sample, and by the travel time itself if that is a whole number. -/
theorem C183_downwind (f : ℕ → ℕ → α) (pos : List (ι × Vec)) (spd dir : ℝ) (T : ℕ) (hs : 0 < spd) (r : List (ι × List α)) (h : simKt f pos spd dir T = .ok r)
    (i j : ℕ) (hi : i < pos.length) (hj : j < pos.length) (hline : across dir pos[i].2 = across dir pos[j].2) (hdown : downstream dir pos[i].2 ≤ downstream dir pos[j].2) :
    ∃ u v, r[i]? = some u ∧ r[j]? = some v ∧ u.1 = pos[i].1 ∧ v.1 = pos[j].1 ∧
      ∃ k : ℕ, |(k : ℝ) - (downstream dir pos[j].2 - downstream dir pos[i].2) / spd| < 1 ∧
        (∀ m : ℕ, downstream dir pos[j].2 - downstream dir pos[i].2 = m * spd → k = m) ∧
        ∀ t : ℕ, t + k ≤ T → v.2[t + k]? = u.2[t]? := by
  obtain ⟨a, b, hab, hr⟩ := series_of f pos spd dir T hs r h
  obtain ⟨hi', ei⟩ := hr i hi
  obtain ⟨hj', ej⟩ := hr j hj
  refine ⟨r[i], r[j], List.getElem?_eq_getElem hi', List.getElem?_eq_getElem hj', by rw [ei], by rw [ej], ?_⟩
  have ni : 0 ≤ ⌊(a - downstream dir pos[i].2) / spd⌋ := Int.floor_nonneg.2 (div_nonneg (by linarith [(hab _ (List.getElem_mem hi)).1]) hs.le)
  have nj : 0 ≤ ⌊(a - downstream dir pos[j].2) / spd⌋ := Int.floor_nonneg.2 (div_nonneg (by linarith [(hab _ (List.getElem_mem hj)).1]) hs.le)
  have le : ⌊(a - downstream dir pos[j].2) / spd⌋ ≤ ⌊(a - downstream dir pos[i].2) / spd⌋ := Int.floor_le_floor (div_le_div_of_nonneg_right (by linarith) hs.le)
  have key : (((⌊(a - downstream dir pos[i].2) / spd⌋ - ⌊(a - downstream dir pos[j].2) / spd⌋).toNat : ℕ) : ℝ) = ((⌊(a - downstream dir pos[i].2) / spd⌋ - ⌊(a - downstream dir pos[j].2) / spd⌋ : ℤ) : ℝ) := by
    have : (((⌊(a - downstream dir pos[i].2) / spd⌋ - ⌊(a - downstream dir pos[j].2) / spd⌋).toNat : ℕ) : ℤ) = ⌊(a - downstream dir pos[i].2) / spd⌋ - ⌊(a - downstream dir pos[j].2) / spd⌋ := Int.toNat_of_nonneg (by omega)
    exact_mod_cast this
  refine ⟨(⌊(a - downstream dir pos[i].2) / spd⌋ - ⌊(a - downstream dir pos[j].2) / spd⌋).toNat, ?_, ?_, ?_⟩
  · rw [key]
    have := floor_sub_near ((a - downstream dir pos[i].2) / spd) ((a - downstream dir pos[j].2) / spd)
    have e : (a - downstream dir pos[i].2) / spd - (a - downstream dir pos[j].2) / spd = (downstream dir pos[j].2 - downstream dir pos[i].2) / spd := by ring
    rwa [e] at this
  · intro m hm
    have e : (a - downstream dir pos[i].2) / spd = (a - downstream dir pos[j].2) / spd + m := by
      field_simp
      linarith
    rw [e, Int.floor_add_natCast]
    omega
  · intro t ht
    rw [ei, ej]
    simp only
    rw [hline, List.getElem?_map, List.getElem?_map, List.getElem?_range (by omega), List.getElem?_range (by omega), Option.map_some, Option.map_some]
    congr 2
    omega

/-- C184: whatever their positions, the cells two sensors record at the same instant lie as many rows and columns apart as the sensors
are apart along and across the motion, in seconds of cloud motion, up to less than one; all sensors record the column at the pace of one
row per second. -/
theorem C184_cells (f : ℕ → ℕ → α) (pos : List (ι × Vec)) (spd dir : ℝ) (T : ℕ) (hs : 0 < spd) (r : List (ι × List α)) (h : simKt f pos spd dir T = .ok r) :
    ∃ row col : ℕ → ℕ, (∀ i (_ : i < pos.length), ∃ u, r[i]? = some u ∧ ∀ t ≤ T, u.2[t]? = some (f (row i + t) (col i))) ∧
      ∀ i (hi : i < pos.length), ∀ j (hj : j < pos.length),
        |((row i : ℝ) - row j) - (downstream dir pos[j].2 - downstream dir pos[i].2) / spd| < 1 ∧
        |((col j : ℝ) - col i) - (across dir pos[j].2 - across dir pos[i].2) / spd| < 1 ∧
        (downstream dir pos[i].2 = downstream dir pos[j].2 → row i = row j) ∧ (across dir pos[i].2 = across dir pos[j].2 → col i = col j) := by
  obtain ⟨a, b, hab, hr⟩ := series_of f pos spd dir T hs r h
  refine ⟨fun i => if hi : i < pos.length then ⌊(a - downstream dir pos[i].2) / spd⌋.toNat else 0, fun i => if hi : i < pos.length then ⌊(across dir pos[i].2 - b) / spd⌋.toNat else 0, ?_, ?_⟩
  · intro i hi
    obtain ⟨hi', ei⟩ := hr i hi
    refine ⟨r[i], List.getElem?_eq_getElem hi', fun t ht => ?_⟩
    simp only [dif_pos hi]
    rw [ei]
    simp only
    rw [List.getElem?_map, List.getElem?_range (by omega), Option.map_some]
  · intro i hi j hj
    simp only [dif_pos hi, dif_pos hj]
    have cast : ∀ x : ℝ, 0 ≤ x → ((⌊x⌋.toNat : ℕ) : ℝ) = (⌊x⌋ : ℝ) := by
      intro x hx
      have : ((⌊x⌋.toNat : ℕ) : ℤ) = ⌊x⌋ := Int.toNat_of_nonneg (Int.floor_nonneg.2 hx)
      exact_mod_cast this
    rw [cast _ (div_nonneg (by linarith [(hab _ (List.getElem_mem hi)).1]) hs.le), cast _ (div_nonneg (by linarith [(hab _ (List.getElem_mem hj)).1]) hs.le),
      cast _ (div_nonneg (by linarith [(hab _ (List.getElem_mem hj)).2]) hs.le), cast _ (div_nonneg (by linarith [(hab _ (List.getElem_mem hi)).2]) hs.le)]
    refine ⟨?_, ?_, ?_, ?_⟩
    · have := floor_sub_near ((a - downstream dir pos[i].2) / spd) ((a - downstream dir pos[j].2) / spd)
      have e : (a - downstream dir pos[i].2) / spd - (a - downstream dir pos[j].2) / spd = (downstream dir pos[j].2 - downstream dir pos[i].2) / spd := by ring
      rw [e] at this
      exact_mod_cast this
    · have := floor_sub_near ((across dir pos[j].2 - b) / spd) ((across dir pos[i].2 - b) / spd)
      have e : (across dir pos[j].2 - b) / spd - (across dir pos[i].2 - b) / spd = (across dir pos[j].2 - across dir pos[i].2) / spd := by ring
      rw [e] at this
      exact_mod_cast this
    · intro e; rw [e]
    · intro e; rw [e]

/-- The hypotheses of C182–C184 hold in a concrete case: two sensors 15 m apart along the motion and 7 m across, clouds of 10 m/s. -/
example : ∃ r, simKt (fun i j => (i, j)) [((0 : ℕ), ((0 : ℝ), (0 : ℝ))), (1, (15, 7))] 10 0 60 = .ok r := by
  have hx : Extent (downstream 0) [((0 : ℕ), ((0 : ℝ), (0 : ℝ))), (1, (15, 7))] 15 := by
    constructor
    · exact ⟨_, List.mem_cons_self, _, List.mem_cons_of_mem _ List.mem_cons_self, by norm_num [downstream]⟩
    · intro p hp q hq
      simp only [List.mem_cons, List.not_mem_nil, or_false] at hp hq
      rcases hp with rfl | rfl <;> rcases hq with rfl | rfl <;> norm_num [downstream]
  have hy : Extent (across 0) [((0 : ℕ), ((0 : ℝ), (0 : ℝ))), (1, (15, 7))] 7 := by
    constructor
    · exact ⟨_, List.mem_cons_self, _, List.mem_cons_of_mem _ List.mem_cons_self, by norm_num [across]⟩
    · intro p hp q hq
      simp only [List.mem_cons, List.not_mem_nil, or_false] at hp hq
      rcases hp with rfl | rfl <;> rcases hq with rfl | rfl <;> norm_num [across]
  have hnot : ∀ n d : ℤ, ¬ n ∣ d → ¬ WholeSeconds (d : ℝ) (n : ℝ) := by
    rintro n d h ⟨k, hk⟩
    apply h
    exact ⟨k, by rw [mul_comm]; exact_mod_cast hk⟩
  refine (C182_sampled_partial _ _ 10 0 60 (by norm_num) 15 7 hx hy).1.2 ⟨?_, ?_⟩
  · exact_mod_cast hnot 10 15 (by decide)
  · exact_mod_cast hnot 10 7 (by decide)

/-! ## C185 -/

variable [DecidableEq ι]

/-- A sum over a window that contains everything that is not zero. -/
theorem window_sum (g : ℤ → ℝ) (a T M : ℕ) (hin : a + T + 1 ≤ M) (h : ∀ k : ℤ, g k ≠ 0 → (a : ℤ) ≤ k ∧ k ≤ a + T) :
    ∑ k ∈ Finset.range (T + 1), g ((k : ℤ) + a) = ∑ k ∈ Finset.range M, g k := by
  have e : ∑ k ∈ Finset.range (T + 1), g ((k : ℤ) + a) = ∑ k ∈ Finset.Ico a (a + T + 1), g k := by
    rw [Finset.sum_Ico_eq_sum_range]
    have : a + T + 1 - a = T + 1 := by omega
    rw [this]
    apply Finset.sum_congr rfl
    intro k _
    push_cast
    rw [add_comm]
  rw [e]
  apply Finset.sum_subset
  · intro k hk
    rw [Finset.mem_Ico] at hk
    rw [Finset.mem_range]
    omega
  · intro k _ hk
    by_contra hne
    have := h k hne
    apply hk
    rw [Finset.mem_Ico]
    omega

/-- Series read from a field whose columns carry the same pattern are a frozen pattern that moves towards smaller `x`. -/
theorem frozen_of_field (f : ℕ → ℕ → ℝ) (M N T : ℕ) (spd : ℝ) (hs : 0 < spd) (q : ℤ → ℝ) (c : ℕ → ℝ) (hf : ∀ i < M, ∀ j < N, f i j = c j + q i)
    (pos : List (ι × Vec)) (n col : ι → ℕ) (hn : ∀ p ∈ pos, p.2.1 = n p.1 * spd) (hcol : ∀ p ∈ pos, col p.1 * spd ≤ p.2.2 ∧ p.2.2 < (col p.1 + 1) * spd ∧ col p.1 < N)
    (hin : ∀ p ∈ pos, n p.1 + T + 1 ≤ M) (hsupp : ∀ p ∈ pos, ∀ k : ℤ, q k ≠ 0 → (n p.1 : ℤ) ≤ k ∧ k ≤ n p.1 + T)
    (hbal : ∑ k ∈ Finset.range M, q k = 0) (hstr : 0.001 ^ 2 * (T + 1) ≤ ∑ k ∈ Finset.range M, q k ^ 2)
    (ts : List (ι × List (Option ℝ))) (hts : List.Forall₂ (fun p r => r.1 = p.1 ∧ ∃ s, positionalTs f M N p.2 spd T = .ok s ∧ r.2 = s.map some) pos ts) :
    FrozenPattern (T + 1) 1 (-spd, 0) q (fun i => -(n i : ℤ)) (fun i => c (col i)) pos ts := by
  have back : ∀ r ∈ ts, ∃ p ∈ pos, r.1 = p.1 ∧ ∃ s, positionalTs f M N p.2 spd T = .ok s ∧ r.2 = s.map some := by
    intro r hr
    obtain ⟨i, hi, rfl⟩ := List.getElem_of_mem hr
    have := hts.get (i := i) (by rw [hts.length_eq]; exact hi) hi
    exact ⟨_, List.get_mem _ _, this⟩
  refine ⟨?_, ?_, ?_, ?_, ?_, ?_⟩
  · intro i hi
    have : ts.map Prod.fst = pos.map Prod.fst := by
      apply List.ext_getElem (by simp [hts.length_eq])
      intro k h1 h2
      rw [List.length_map] at h1 h2
      have := hts.get (i := k) h2 h1
      rw [List.getElem_map, List.getElem_map]
      exact this.1
    rw [this]; exact hi
  · intro r hr
    obtain ⟨p, hp, e1, s, hsr, e2⟩ := back r hr
    obtain ⟨c1, c2, c3⟩ := hcol p hp
    have fx : ⌊p.2.1 / spd⌋ = n p.1 := by rw [hn p hp]; field_simp; simp
    have fy : ⌊p.2.2 / spd⌋ = col p.1 := by
      rw [Int.floor_eq_iff]
      constructor
      · rw [le_div_iff₀ hs]; exact_mod_cast c1
      · rw [div_lt_iff₀ hs]; exact_mod_cast c2
    have hy0 : 0 ≤ p.2.2 := le_trans (mul_nonneg (Nat.cast_nonneg _) hs.le) c1
    have hx0 : 0 ≤ p.2.1 := by rw [hn p hp]; exact mul_nonneg (Nat.cast_nonneg _) hs.le
    have eq := CloudTs.ts_eq f M N p.2 spd T hs hx0 hy0 (by rw [fy]; exact_mod_cast c3) (Nat.cast_nonneg _)
    rw [eq, Except.ok.injEq] at hsr
    rw [e2, ← hsr, fx, fy, e1, Int.floor_natCast, Int.toNat_natCast, Int.toNat_natCast, Int.toNat_natCast, List.map_map]
    have h1 := hin p hp
    have e3 : min (n p.1 + T + 1) M - min (n p.1) M = T + 1 := by omega
    have e4 : min (n p.1) M = n p.1 := by omega
    rw [e3, e4]
    unfold record
    apply List.map_congr_left
    intro k hk
    rw [List.mem_range] at hk
    simp only [Function.comp]
    rw [hf _ (by omega) _ c3]
    congr 3
    push_cast
    ring
  · refine ⟨0, fun p hp => ?_⟩
    rw [hn p hp]
    push_cast
    field_simp
    ring
  · intro r hr k hk
    obtain ⟨p, hp, e1, -⟩ := back r hr
    rw [e1] at hk
    have := hsupp p hp _ hk
    push_cast
    constructor <;> omega
  · intro r hr
    obtain ⟨p, hp, e1, -⟩ := back r hr
    rw [e1, ← hbal, ← window_sum q (n p.1) T M (hin p hp) (hsupp p hp)]
    apply Finset.sum_congr rfl
    intro k _
    rw [sub_neg_eq_add]
  · intro r hr
    obtain ⟨p, hp, e1, -⟩ := back r hr
    have := window_sum (fun k => q k ^ 2) (n p.1) T M (hin p hp) (fun k hk => hsupp p hp k (fun h => hk (by simp [h])))
    rw [e1]
    push_cast
    refine hstr.trans (le_of_eq ?_)
    rw [← this]
    apply Finset.sum_congr rfl
    intro k _
    rw [sub_neg_eq_add]

theorem angle_pi {spd t : ℝ} (hs : 0 < spd) (h0 : 0 ≤ t) (h1 : t < 2 * Real.pi) (h : pol2rect (magnitude (-spd, 0)) t = (-spd, 0)) : t = Real.pi := by
  have em : magnitude (-spd, 0) = spd := by
    unfold magnitude
    simp [Real.sqrt_sq_eq_abs, abs_of_pos hs]
  rw [em] at h
  unfold pol2rect at h
  obtain ⟨hc, -⟩ := Prod.mk.inj h
  have hc : Real.cos t = -1 := by
    have : spd * (Real.cos t + 1) = 0 := by linarith
    rcases mul_eq_zero.1 this with h | h
    · exact absurd h hs.ne'
    · linarith
  obtain ⟨k, hk⟩ := Real.cos_eq_neg_one_iff.1 hc
  have pp := Real.pi_pos
  have k0 : k = 0 := by
    have a : (-1 : ℝ) < k := by
      by_contra hcon
      push Not at hcon
      nlinarith
    have b : (k : ℝ) < 1 := by
      by_contra hcon
      push Not at hcon
      nlinarith
    have a' : (-1 : ℤ) < k := by exact_mod_cast a
    have b' : k < (1 : ℤ) := by exact_mod_cast b
    omega
  rw [← hk, k0]; simp

/-- C185: the cloud motion of series read from a synthetic field with `get_positional_ts` has exactly the speed they were read with, and
the direction π: the clouds come from larger `x`.  (Columns with a common pattern on their own background levels; the pattern passes
every site within the duration; sites a whole number of cells along the field.) -/
theorem C185_gagne (x : Cmv.Ext) (hls : ExactLsq x.leastsq) (nanD : List (Option ℝ) → List (Option ℝ) → Option ℝ)
    (hx : ∀ a b, x.delays "xcorr" a b = Cmv.xcorrDelays nanD 1 a b)
    (f : ℕ → ℕ → ℝ) (M N T : ℕ) (spd : ℝ) (hs : 0 < spd) (q : ℤ → ℝ) (c : ℕ → ℝ) (hf : ∀ i < M, ∀ j < N, f i j = c j + q i)
    (pos : List (ι × Vec)) (hnd : (pos.map Prod.fst).Nodup) (n col : ι → ℕ) (hn : ∀ p ∈ pos, p.2.1 = n p.1 * spd) (hcol : ∀ p ∈ pos, col p.1 * spd ≤ p.2.2 ∧ p.2.2 < (col p.1 + 1) * spd ∧ col p.1 < N)
    (hin : ∀ p ∈ pos, n p.1 + T + 1 ≤ M) (hsupp : ∀ p ∈ pos, ∀ k : ℤ, q k ≠ 0 → (n p.1 : ℤ) ≤ k ∧ k ≤ n p.1 + T)
    (hbal : ∑ k ∈ Finset.range M, q k = 0) (hstr : 0.001 ^ 2 * (T + 1) ≤ ∑ k ∈ Finset.range M, q k ^ 2)
    (ts : List (ι × List (Option ℝ))) (hts : List.Forall₂ (fun p r => r.1 = p.1 ∧ ∃ s, positionalTs f M N p.2 spd T = .ok s ∧ r.2 = s.map some) pos ts)
    (hbright : ∀ p ∈ pos, ∃ k : ℕ, n p.1 ≤ k ∧ k ≤ n p.1 + T ∧ 0.4 ≤ c (col p.1) + q k)
    (a b a' b' : ι) (pa pb pa' pb' : Vec) (ha : (a, pa) ∈ pos) (hb1 : (b, pb) ∈ pos) (ha' : (a', pa') ∈ pos) (hb' : (b', pb') ∈ pos)
    (hlag : n a ≠ n b) (hlag' : n a' ≠ n b') (hind : Independent (pb - pa) (pb' - pa')) :
    ∃ out, (Cmv.computeCmv x ts pos .none "gagne" "xcorr" none).1 = .ok out ∧ out.speed = some spd ∧ out.angle = some Real.pi := by
  have hfr := frozen_of_field f M N T spd hs q c hf pos n col hn hcol hin hsupp hbal hstr ts hts
  obtain ⟨out, h1, h2, t, h3, h4, h5, h6⟩ := Cmv.C135_gagne_from_series x hls nanD 1 one_pos hx (T + 1) (by omega) (-spd, 0) (by simp [hs.ne']) q _ _ pos hnd ts hfr .none "gagne" "xcorr"
    (by decide +kernel) (by decide +kernel) none (by simp)
    (by
      intro r hr
      obtain ⟨i, hi, rfl⟩ := List.getElem_of_mem hr
      have hi2 : i < pos.length := by rw [hts.length_eq]; exact hi
      have e := (hts.get (i := i) (by rw [hts.length_eq]; exact hi) hi).1
      simp only [List.get_eq_getElem] at e
      obtain ⟨k, k1, k2, k3⟩ := hbright _ (List.getElem_mem (l := pos) (by rw [hts.length_eq]; exact hi))
      refine ⟨k - n ts[i].1, by rw [e]; omega, ?_⟩
      rw [e]
      have : ((k - n pos[i].1 : ℕ) : ℤ) - -(n pos[i].1 : ℤ) = k := by omega
      rw [this]
      exact k3)
    a b a' b' pa pb pa' pb' ha hb1 ha' hb' (Or.inl (Or.inl rfl)) (Or.inl (Or.inl rfl)) (by simpa using hlag) (by simpa using hlag') hind
  have em : magnitude (-spd, 0) = spd := by
    unfold magnitude
    simp [Real.sqrt_sq_eq_abs, abs_of_pos hs]
  refine ⟨out, h1, by rw [h2, em], ?_⟩
  rw [h3, angle_pi hs h4 h5 h6]

/-- The hypotheses of C185 hold in a concrete case: three sites in a field of 4 × 1 cells, clouds of 10 m/s. -/
example (x : Cmv.Ext) (hls : ExactLsq x.leastsq) (nanD : List (Option ℝ) → List (Option ℝ) → Option ℝ)
    (hx : ∀ a b, x.delays "xcorr" a b = Cmv.xcorrDelays nanD 1 a b) (f : ℕ → ℕ → ℝ) (hf : ∀ i < 4, ∀ j < 1, f i j = 0.6 + Cmv.pulse ((i : ℤ) - 1))
    (ts : List (ℕ × List (Option ℝ))) (hts : List.Forall₂ (fun p r => r.1 = p.1 ∧ ∃ s, positionalTs f 4 1 p.2 10 (2 : ℕ) = .ok s ∧ r.2 = s.map some) [((0 : ℕ), ((0 : ℝ), (0 : ℝ))), (1, (10, 0)), (2, (10, 5))] ts) :
    ∃ out, (Cmv.computeCmv x ts [((0 : ℕ), ((0 : ℝ), (0 : ℝ))), (1, (10, 0)), (2, (10, 5))] .none "gagne" "xcorr" none).1 = .ok out ∧ out.speed = some 10 ∧ out.angle = some Real.pi := by
  have all : ∀ P : ℕ × Vec → Prop, P (0, (0, 0)) → P (1, (10, 0)) → P (2, (10, 5)) → ∀ p ∈ [((0 : ℕ), ((0 : ℝ), (0 : ℝ))), (1, (10, 0)), (2, (10, 5))], P p := by
    intro P h0 h1 h2 p hp
    simp only [List.mem_cons, List.not_mem_nil, or_false] at hp
    rcases hp with rfl | rfl | rfl
    · exact h0
    · exact h1
    · exact h2
  have supp : ∀ k : ℤ, Cmv.pulse (k - 1) ≠ 0 → k = 1 ∨ k = 2 := by
    intro k hk
    by_contra hne
    push Not at hne
    apply hk
    unfold Cmv.pulse
    rw [if_neg (by omega), if_neg (by omega)]
  refine C185_gagne x hls nanD hx f 4 1 2 10 (by norm_num) (fun k => Cmv.pulse (k - 1)) (fun _ => 0.6) hf _ (by simp) (fun i => if i = 0 then 0 else 1) (fun _ => 0)
    (all _ ?_ ?_ ?_) (all _ ?_ ?_ ?_) (all _ ?_ ?_ ?_) (all _ ?_ ?_ ?_) ?_ ?_ ts hts (all _ ?_ ?_ ?_)
    0 1 0 2 (0, 0) (10, 0) (0, 0) (10, 5) (by simp) (by simp) (by simp) (by simp) (by simp) (by simp) (by simp [Independent])
  any_goals (norm_num; done)
  any_goals (intro k hk; rcases supp k hk with h | h <;> rw [h] <;> norm_num; done)
  any_goals (simp [Finset.sum_range_succ, Cmv.pulse]; norm_num; done)
  all_goals exact ⟨1, by norm_num, by norm_num, by norm_num [Cmv.pulse]⟩

end SST.Props.CloudDemo
