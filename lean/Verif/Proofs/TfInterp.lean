import Verif.Proofs.Tf
import Mathlib.Data.List.Sort

/-! # Helper lemmas: interpolation -/

namespace SST.Tf
open SST

theorem insertF_perm {α : Type} (p : ℝ × α) (l : List (ℝ × α)) : (insertF p l).Perm (p :: l) := by
  induction l with
  | nil => exact List.Perm.refl _
  | cons q qs ih =>
    unfold insertF
    split_ifs
    · exact List.Perm.refl _
    · exact (ih.cons q).trans (List.Perm.swap p q qs)

theorem sortF_perm {α : Type} (l : List (ℝ × α)) : (sortF l).Perm l := by
  induction l with
  | nil => exact List.Perm.refl _
  | cons q qs ih => exact (insertF_perm q (sortF qs)).trans (ih.cons q)

theorem insertF_sorted {α : Type} (p : ℝ × α) (l : List (ℝ × α)) (h : l.Pairwise fun a b => a.1 ≤ b.1) :
    (insertF p l).Pairwise fun a b => a.1 ≤ b.1 := by
  induction l with
  | nil => simp [insertF]
  | cons q qs ih =>
    rw [List.pairwise_cons] at h
    unfold insertF
    split_ifs with hc
    · rw [List.pairwise_cons, List.pairwise_cons]
      refine ⟨?_, h⟩
      intro b hb
      rcases List.mem_cons.1 hb with rfl | hb
      · exact hc
      · exact hc.trans (h.1 b hb)
    · rw [List.pairwise_cons]
      refine ⟨?_, ih h.2⟩
      intro b hb
      rcases List.mem_cons.1 ((insertF_perm p qs).mem_iff.1 hb) with rfl | hb
      · exact (not_le.1 hc).le
      · exact h.1 b hb

theorem sortF_sorted {α : Type} (l : List (ℝ × α)) : (sortF l).Pairwise fun a b => a.1 ≤ b.1 := by
  induction l with
  | nil => exact List.Pairwise.nil
  | cons q qs ih => exact insertF_sorted q _ ih

theorem sortF_strict {α : Type} (l : List (ℝ × α)) (hd : (l.map Prod.fst).Nodup) : (sortF l).Pairwise fun a b => a.1 < b.1 := by
  have h2 : ((sortF l).map Prod.fst).Nodup := ((sortF_perm l).map Prod.fst).nodup_iff.2 hd
  rw [List.Nodup, List.pairwise_map] at h2
  apply ((sortF_sorted l).and h2).imp
  intro a b h
  exact lt_of_le_of_ne h.1 h.2

theorem sortF_congr {α : Type} {l l' : List (ℝ × α)} (hp : l.Perm l') (hd : (l.map Prod.fst).Nodup) : sortF l = sortF l' := by
  have hp' : (sortF l).Perm (sortF l') := (sortF_perm l).trans (hp.trans (sortF_perm l').symm)
  have hd' : (l'.map Prod.fst).Nodup := (hp.map Prod.fst).nodup_iff.1 hd
  apply hp'.eq_of_pairwise _ (sortF_strict l hd) (sortF_strict l' hd')
  intro a b _ _ h1 h2
  exact absurd (h1.trans h2) (lt_irrefl _)

/-- `interp1d` at a node. -/
theorem interp1_node (l : List (ℝ × ℝ)) (hs : l.Pairwise fun a b => a.1 < b.1) (hl : 2 ≤ l.length) {p : ℝ × ℝ} (hp : p ∈ l) :
    interp1 l p.1 = .ok p.2 := by
  induction l with
  | nil => simp at hp
  | cons a rest ih =>
    cases rest with
    | nil => simp at hl
    | cons b rest =>
      rw [List.pairwise_cons] at hs
      have hab := hs.1 b (by simp)
      have hne : b.1 - a.1 ≠ 0 := by linarith
      unfold interp1
      rcases List.mem_cons.1 hp with rfl | hp
      · rw [if_neg (lt_irrefl _), if_pos hab.le]; simp
      · rw [if_neg (not_lt.2 (hs.1 p hp).le)]
        rcases List.mem_cons.1 hp with rfl | hp'
        · rw [if_pos le_rfl]; congr 1; field_simp; ring
        · have hbp : b.1 < p.1 := (List.pairwise_cons.1 hs.2).1 p hp'
          rw [if_neg (not_le.2 hbp)]
          apply ih hs.2 _ hp
          have := List.length_pos_of_mem hp'
          simp; omega

/-- `interp1d` inside the range succeeds and stays between the neighbouring samples. -/
theorem interp1_between (l : List (ℝ × ℝ)) (hs : l.Pairwise fun a b => a.1 < b.1) {pre post : List (ℝ × ℝ)} {a b : ℝ × ℝ}
    (h : l = pre ++ a :: b :: post) {x : ℝ} (h1 : a.1 ≤ x) (h2 : x ≤ b.1) :
    interp1 l x = .ok (a.2 + (b.2 - a.2) * ((x - a.1) / (b.1 - a.1))) := by
  induction pre generalizing l with
  | nil =>
    subst h
    simp only [List.nil_append] at hs ⊢
    unfold interp1
    rw [if_neg (not_lt.2 h1), if_pos h2]
    congr 1; ring
  | cons c pre ih =>
    subst h
    rw [List.cons_append, List.pairwise_cons] at hs
    have hca : c.1 < a.1 := hs.1 a (by simp)
    cases hpre : pre ++ a :: b :: post with
    | nil => simp at hpre
    | cons d tl =>
      rw [List.cons_append, hpre]
      unfold interp1
      rw [if_neg (not_lt.2 (hca.le.trans h1))]
      by_cases hd : x ≤ d.1
      · rw [if_pos hd]
        -- then `d` is `a` and `x = a`
        cases pre with
        | nil =>
          simp only [List.nil_append, List.cons.injEq] at hpre
          obtain ⟨rfl, rfl⟩ := hpre
          have hx : x = a.1 := le_antisymm hd h1
          subst hx
          have : a.1 - c.1 ≠ 0 := by linarith
          congr 1
          field_simp
          ring
        | cons e pre' =>
          simp only [List.cons_append, List.cons.injEq] at hpre
          obtain ⟨rfl, -⟩ := hpre
          exfalso
          have : e.1 < a.1 := (List.pairwise_cons.1 hs.2).1 a (by simp)
          linarith
      · rw [if_neg hd]
        rw [← hpre]
        exact ih _ hs.2 rfl

theorem interp1_error (l : List (ℝ × ℝ)) (x : ℝ) (h : (∀ p ∈ l, x < p.1) ∨ (∀ p ∈ l, p.1 < x)) :
    interp1 l x = .error .valueError := by
  induction l with
  | nil => rfl
  | cons a rest ih =>
    cases rest with
    | nil => rfl
    | cons b rest =>
      unfold interp1
      rcases h with h | h
      · rw [if_pos (h a (by simp))]
      · rw [if_neg (not_lt.2 (h a (by simp)).le), if_neg (not_le.2 (h b (by simp)))]
        exact ih (Or.inr fun p hp => h p (by simp [hp]))

theorem interp1_ok (l : List (ℝ × ℝ)) (x : ℝ) (hs : l.Pairwise fun a b => a.1 < b.1) (hl : 2 ≤ l.length)
    (h1 : ∃ p ∈ l, p.1 ≤ x) (h2 : ∃ p ∈ l, x ≤ p.1) :
    ∃ pre a b post, l = pre ++ a :: b :: post ∧ a.1 ≤ x ∧ x ≤ b.1 := by
  induction l with
  | nil => simp at hl
  | cons a rest ih =>
    cases rest with
    | nil => simp at hl
    | cons b rest =>
      rw [List.pairwise_cons] at hs
      have hax : a.1 ≤ x := by
        obtain ⟨p, hp, hpx⟩ := h1
        rcases List.mem_cons.1 hp with rfl | hp
        · exact hpx
        · exact (hs.1 p hp).le.trans hpx
      by_cases hb : x ≤ b.1
      · exact ⟨[], a, b, rest, rfl, hax, hb⟩
      · push Not at hb
        obtain ⟨p, hp, hpx⟩ := h2
        have hp' : p ∈ rest := by
          rcases List.mem_cons.1 hp with rfl | hp
          · linarith [hs.1 b (by simp)]
          · rcases List.mem_cons.1 hp with rfl | hp
            · linarith
            · exact hp
        obtain ⟨pre, c, d, post, he, hc, hd⟩ := ih hs.2 (by have := List.length_pos_of_mem hp'; simp; omega)
          ⟨b, by simp, hb.le⟩ ⟨p, by simp [hp'], hpx⟩
        exact ⟨a :: pre, c, d, post, by rw [he]; rfl, hc, hd⟩

end SST.Tf
