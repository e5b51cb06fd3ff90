import Verif.Spec.Assign
import Verif.Proofs.Remap
import Mathlib.Data.Fintype.Pi
import Mathlib.Data.Set.Finite.Lattice

/-! # Proofs about `assign_positions` -/

namespace SST.Field
open SST SST.Spec

theorem perm_range {c : List ℕ} {n : ℕ} (hn : c.Nodup) (hlt : ∀ j ∈ c, j < n) (hl : c.length = n) :
    c.Perm (List.range n) := by
  have hs : c ⊆ List.range n := fun j hj => List.mem_range.2 (hlt j hj)
  exact (hn.subperm hs).perm_of_length_le (by simp [hl])

theorem sorted_range {r : List ℕ} {n : ℕ} (hs : r.Pairwise (· < ·)) (hlt : ∀ j ∈ r, j < n)
    (hl : r.length = n) : r = List.range n := by
  apply List.Perm.eq_of_pairwise (le := (· < ·)) _ hs List.pairwise_lt_range
    (perm_range (hs.imp ne_of_lt) hlt hl)
  intro a b _ _ h1 h2; omega

theorem perm_map_lift {α β : Type*} (f : α → β) {m m' : List β} (h : m.Perm m') :
    ∀ l : List α, l.map f = m → ∃ q : List α, q.Perm l ∧ q.map f = m' := by
  induction h with
  | nil => intro l hl; exact ⟨l, List.Perm.refl _, hl⟩
  | cons x h ih =>
    intro l hl
    cases l with
    | nil => simp at hl
    | cons a l =>
      simp at hl
      obtain ⟨q, h1, h2⟩ := ih l hl.2
      exact ⟨a :: q, h1.cons a, by simp [hl.1, h2]⟩
  | swap x y l' =>
    intro l hl
    match l, hl with
    | a :: b :: l, hl =>
      simp at hl
      exact ⟨b :: a :: l, List.Perm.swap _ _ _, by simp [hl]⟩
  | trans h1 h2 ih1 ih2 =>
    intro l hl
    obtain ⟨q, a, b⟩ := ih1 l hl
    obtain ⟨q', a', b'⟩ := ih2 q b
    exact ⟨q', a'.trans a, b'⟩

variable {ι κ : Type}

theorem posOf_eq [DecidableEq ι] {tbl : List (ι × Vec)} (hn : (tbl.map Prod.fst).Nodup) {i : ℕ}
    (hi : i < tbl.length) : posOf tbl tbl[i].1 = tbl[i].2 := by
  have := dictGet?_of_mem hn (show (tbl[i].1, tbl[i].2) ∈ tbl from List.getElem_mem hi)
  unfold posOf
  unfold dictGet? at this
  rw [this]; rfl

theorem posOf_mem [DecidableEq ι] {tbl : List (ι × Vec)} (hn : (tbl.map Prod.fst).Nodup) {p : ι × Vec}
    (hp : p ∈ tbl) : posOf tbl p.1 = p.2 := by
  have := dictGet?_of_mem hn (show (p.1, p.2) ∈ tbl from hp)
  unfold posOf
  unfold dictGet? at this
  rw [this]; rfl

theorem totalDist_perm [DecidableEq ι] {orig pred : List (ι × Vec)} {r r' : List (ι × ι)}
    (h : r.Perm r') : totalDist orig pred r = totalDist orig pred r' :=
  (h.map _).sum_eq

theorem pdist_comm (p q : Vec) : pdist p q = pdist q p := by
  unfold pdist; congr 1; ring

theorem pdist_nonneg (p q : Vec) : 0 ≤ pdist p q := Real.sqrt_nonneg _

theorem pdist_eq_zero {p q : Vec} (h : pdist p q = 0) : p = q := by
  unfold pdist at h
  rw [Real.sqrt_eq_zero (by positivity)] at h
  have h1 : (p.1 - q.1) ^ 2 = 0 := by nlinarith [sq_nonneg (p.1 - q.1), sq_nonneg (p.2 - q.2)]
  have h2 : (p.2 - q.2) ^ 2 = 0 := by nlinarith [sq_nonneg (p.1 - q.1), sq_nonneg (p.2 - q.2)]
  ext
  · linarith [pow_eq_zero_iff (two_ne_zero) |>.1 h1]
  · linarith [pow_eq_zero_iff (two_ne_zero) |>.1 h2]

theorem cost_eq [DecidableEq ι] (orig : List (ι × Vec)) (rows : List (ι × PredRow))
    (hn : (orig.map Prod.fst).Nodup) (hlab : rows.map Prod.fst = orig.map Prod.fst)
    (q : List (ι × ι)) (hq : q.map Prod.snd = orig.map Prod.fst)
    (hq1 : ∀ p ∈ q, p.1 ∈ orig.map Prod.fst) :
    matchCost (costMatrix (orig.map Prod.snd) (rows.map Prod.snd)) (List.range orig.length)
      (q.map fun p => (orig.map Prod.fst).idxOf p.1) = totalDist orig (predCoords rows) q := by
  have hlen : q.length = orig.length := by simpa using congrArg List.length hq
  have hlen' : rows.length = orig.length := by simpa using congrArg List.length hlab
  unfold matchCost totalDist
  congr 1
  apply List.ext_getElem
  · simp [hlen]
  · intro i h1 h2
    simp only [List.getElem_zipWith, List.getElem_range, List.getElem_map]
    have hi : i < q.length := by simpa using h2
    have hio : i < orig.length := hlen ▸ hi
    set j := (orig.map Prod.fst).idxOf q[i].1 with hj
    have hjl : j < (orig.map Prod.fst).length := List.idxOf_lt_length_iff.2 (hq1 _ (List.getElem_mem hi))
    have hjo : j < orig.length := by simpa using hjl
    have hjr : j < rows.length := hlen' ▸ hjo
    have hlabj : (orig.map Prod.fst)[j] = q[i].1 := List.getElem_idxOf hjl
    have e2 : q[i].2 = orig[i].1 := by
      have : (q.map Prod.snd)[i]'(by simpa using hi) = (orig.map Prod.fst)[i]'(by simpa using hio) := by
        simp only [hq]
      simpa using this
    have e1 : q[i].1 = rows[j].1 := by
      have : (rows.map Prod.fst)[j]'(by simpa using hjr) = (orig.map Prod.fst)[j] := by
        simp only [hlab]
      rw [← hlabj, ← this]; simp
    have hnr : ((predCoords rows).map Prod.fst).Nodup := by
      simp only [predCoords, List.map_map, Function.comp_def]; rw [hlab]; exact hn
    have p2 : posOf orig q[i].2 = orig[i].2 := by rw [e2]; exact posOf_eq hn hio
    have p1 : posOf (predCoords rows) q[i].1 = (rows[j].2.e.getD 0, rows[j].2.n.getD 0) := by
      rw [e1]
      have hjp : j < (predCoords rows).length := by simpa [predCoords] using hjr
      have := posOf_eq hnr hjp
      simpa [predCoords] using this
    rw [p1, p2]
    unfold costMatrix
    rw [List.getElem?_map, List.getElem?_map, List.getElem?_eq_getElem hio, List.getElem?_eq_getElem hjr]
    simp only [Option.map_some, List.length_map, hjo, if_true]
    unfold pdist
    congr 1; ring

theorem mapM_getElem? {α : Type} (l : List α) (c : List ℕ) (h : ∀ j ∈ c, j < l.length) :
    ∃ o, c.mapM (fun j => l[j]?) = some o ∧ o.length = c.length ∧
      ∀ i (h1 : i < o.length) (h2 : i < c.length), l[c[i]]? = some o[i] := by
  induction c with
  | nil => exact ⟨[], rfl, rfl, by simp⟩
  | cons j c ih =>
    obtain ⟨o, e1, e2, e3⟩ := ih (fun k hk => h k (by simp [hk]))
    have hj := h j (by simp)
    refine ⟨l[j] :: o, ?_, by simp [e2], ?_⟩
    · rw [List.mapM_cons, List.getElem?_eq_getElem hj, e1]; rfl
    · intro i h1 h2
      cases i with
      | zero => simp [hj]
      | succ i => simpa using e3 i (by simpa using h1) (by simpa using h2)

/-- Row/column lists of an optimal assignment translate to labels. -/
theorem core_eval [LinearOrder ι] (lsa : LSA) (hl : ∀ n m C, IsMatching n m (lsa n m C).1 (lsa n m C).2) (orig : List (ι × Vec))
    (rows : List (ι × PredRow)) (hn : (orig.map Prod.fst).Nodup)
    (hlab : rows.map Prod.fst = orig.map Prod.fst) :
    ∃ z : List (ι × ι), assignCore lsa orig (rows.map Prod.snd) = .ok (sortPairs z) ∧
      z.map Prod.snd = orig.map Prod.fst ∧ (z.map Prod.fst).Perm (orig.map Prod.fst) ∧
      z.map (fun p => (orig.map Prod.fst).idxOf p.1) =
        (lsa orig.length orig.length (costMatrix (orig.map Prod.snd) (rows.map Prod.snd))).2 ∧
      (lsa orig.length orig.length (costMatrix (orig.map Prod.snd) (rows.map Prod.snd))).1 =
        List.range orig.length := by
  have hlen' : rows.length = orig.length := by simpa using congrArg List.length hlab
  have hm := hl orig.length orig.length (costMatrix (orig.map Prod.snd) (rows.map Prod.snd))
  set rc := lsa orig.length orig.length (costMatrix (orig.map Prod.snd) (rows.map Prod.snd)) with hrc
  have hr : rc.1 = List.range orig.length :=
    sorted_range hm.rows_sorted hm.rows_lt (by simpa using hm.rows_len)
  have hc := perm_range hm.cols_nodup hm.cols_lt (by simpa using hm.cols_len)
  obtain ⟨cl, c1, c2, c3⟩ := mapM_getElem? (orig.map Prod.fst) rc.2 (by simpa using hm.cols_lt)
  obtain ⟨rl, r1, r2, r3⟩ := mapM_getElem? (orig.map Prod.fst) rc.1 (by simpa using hm.rows_lt)
  have hcl : rc.2.length = orig.length := by simpa using hm.cols_len
  have hrl : rl = orig.map Prod.fst := by
    apply List.ext_getElem
    · rw [r2, hr]; simp
    · intro i h1 h2
      have := r3 i h1 (r2 ▸ h1)
      simp only [hr, List.getElem_range] at this
      rw [List.getElem?_eq_getElem h2] at this
      exact (Option.some.inj this).symm
  have hlencr : cl.length = rl.length := by rw [c2, hcl, hrl]; simp
  have hclmap : cl.map (fun a => (orig.map Prod.fst).idxOf a) = rc.2 := by
    apply List.ext_getElem
    · simp [c2]
    · intro i h1 h2
      have h1' : i < cl.length := by simpa using h1
      have := c3 i h1' h2
      have hb : rc.2[i] < (orig.map Prod.fst).length := by
        simpa using hm.cols_lt _ (List.getElem_mem h2)
      rw [List.getElem?_eq_getElem hb] at this
      have h3 := Option.some.inj this
      rw [List.getElem_map, ← h3]
      exact hn.idxOf_getElem _ _
  have hclp : cl.Perm (orig.map Prod.fst) := by
    have hsub : cl.Nodup := by
      have : (cl.map (fun a => (orig.map Prod.fst).idxOf a)).Nodup := hclmap ▸ hm.cols_nodup
      exact this.of_map _
    have hss : cl ⊆ orig.map Prod.fst := by
      intro a ha
      obtain ⟨i, hi, rfl⟩ := List.getElem_of_mem ha
      exact List.mem_of_getElem? (c3 i hi (c2 ▸ hi))
    exact (hsub.subperm hss).perm_of_length_le (by simp [c2, hcl])
  refine ⟨cl.zip rl, ?_, ?_, ?_, ?_, hr⟩
  · unfold assignCore
    simp only [List.length_map, hlen', lt_irrefl, if_false]
    rw [← hrc, c1, r1]
  · rw [List.map_snd_zip (by omega), hrl]
  · rw [List.map_fst_zip (by omega)]; exact hclp
  · rw [show (fun p : ι × ι => (orig.map Prod.fst).idxOf p.1) =
      (fun a => (orig.map Prod.fst).idxOf a) ∘ Prod.fst from rfl, ← List.map_map,
      List.map_fst_zip (by omega), hclmap]

/-- The NaN-free branch with a solver that returns a matching of at most `K` times the least cost. -/
theorem core_ok_of [LinearOrder ι] (K : ℝ) (lsa : LSA) (hl : ∀ n m C, IsMatching n m (lsa n m C).1 (lsa n m C).2) (orig : List (ι × Vec))
    (rows : List (ι × PredRow)) (hn : (orig.map Prod.fst).Nodup)
    (hlab : rows.map Prod.fst = orig.map Prod.fst)
    (hK : ∀ r c, IsMatching orig.length orig.length r c →
      matchCost (costMatrix (orig.map Prod.snd) (rows.map Prod.snd)) (lsa orig.length orig.length (costMatrix (orig.map Prod.snd) (rows.map Prod.snd))).1
        (lsa orig.length orig.length (costMatrix (orig.map Prod.snd) (rows.map Prod.snd))).2 ≤ K * matchCost (costMatrix (orig.map Prod.snd) (rows.map Prod.snd)) r c) :
    ∃ remap, assignCore lsa orig (rows.map Prod.snd) = .ok remap ∧
      (remap.map Prod.fst).Pairwise (· < ·) ∧ IsBijection remap (orig.map Prod.fst) ∧
      ∀ remap', IsBijection remap' (orig.map Prod.fst) →
        totalDist orig (predCoords rows) remap ≤ K * totalDist orig (predCoords rows) remap' := by
  obtain ⟨z, e1, e2, e3, e4, e5⟩ := core_eval lsa hl orig rows hn hlab
  have hp := sortPairs_perm z
  refine ⟨sortPairs z, e1, ?_, ⟨(hp.map _).trans e3, ?_⟩, ?_⟩
  · have h1 : ((sortPairs z).map Prod.fst).Pairwise (· ≤ ·) := by
      rw [List.pairwise_map]; exact sortPairs_sorted z
    have h2 : ((sortPairs z).map Prod.fst).Nodup := ((hp.map _).trans e3).nodup_iff.2 hn
    exact (h1.and h2).imp fun ⟨h1, h2⟩ => lt_of_le_of_ne h1 h2
  · have := hp.map Prod.snd
    rwa [e2] at this
  · intro remap' hb
    rw [totalDist_perm hp]
    obtain ⟨q, q1, q2⟩ := perm_map_lift Prod.snd hb.2 remap' rfl
    rw [← totalDist_perm q1]
    have hq1 : (q.map Prod.fst).Perm (orig.map Prod.fst) := (q1.map _).trans hb.1
    have mz : ∀ p ∈ z, p.1 ∈ orig.map Prod.fst := fun p hp => e3.mem_iff.1 (List.mem_map_of_mem hp)
    have mq : ∀ p ∈ q, p.1 ∈ orig.map Prod.fst := fun p hp => hq1.mem_iff.1 (List.mem_map_of_mem hp)
    rw [← cost_eq orig rows hn hlab z e2 mz, ← cost_eq orig rows hn hlab q q2 mq, e4]
    have hopt := hK
      (List.range orig.length) (q.map fun p => (orig.map Prod.fst).idxOf p.1) ?_
    · rwa [e5] at hopt
    · have hlenq : q.length = orig.length := by simpa using congrArg List.length q2
      refine ⟨List.pairwise_lt_range, by simp, ?_, ?_, by simp, by simp [hlenq]⟩
      · have hnq : (q.map Prod.fst).Nodup := hq1.nodup_iff.2 hn
        rw [show (fun p : ι × ι => (orig.map Prod.fst).idxOf p.1) =
          (fun a => (orig.map Prod.fst).idxOf a) ∘ Prod.fst from rfl, ← List.map_map]
        refine List.Nodup.map_on ?_ hnq
        intro a ha b hb hab
        exact (List.idxOf_inj (hq1.mem_iff.1 ha)).1 hab
      · intro j hj
        obtain ⟨p, hp, rfl⟩ := List.mem_map.1 hj
        simpa using List.idxOf_lt_length_iff.2 (mq p hp)

/-- The NaN-free branch returns a sorted bijection of least total distance. -/
theorem core_ok [LinearOrder ι] (lsa : LSA) (hl : IsLSA lsa) (orig : List (ι × Vec))
    (rows : List (ι × PredRow)) (hn : (orig.map Prod.fst).Nodup)
    (hlab : rows.map Prod.fst = orig.map Prod.fst) :
    ∃ remap, assignCore lsa orig (rows.map Prod.snd) = .ok remap ∧
      (remap.map Prod.fst).Pairwise (· < ·) ∧ IsBijection remap (orig.map Prod.fst) ∧
      ∀ remap', IsBijection remap' (orig.map Prod.fst) →
        totalDist orig (predCoords rows) remap ≤ totalDist orig (predCoords rows) remap' := by
  have := core_ok_of 1 lsa (fun n m C => (hl n m C).1) orig rows hn hlab (fun r c h => by rw [one_mul]; exact (hl _ _ _).2 r c h)
  simpa only [one_mul] using this

/-- A correct assignment solver exists. -/
theorem exists_lsa : ∃ lsa : LSA, IsLSA lsa := by
  have key : ∀ n m C, ∃ rc : List ℕ × List ℕ, IsMatching n m rc.1 rc.2 ∧
      ∀ r c, IsMatching n m r c → matchCost C rc.1 rc.2 ≤ matchCost C r c := by
    intro n m C
    let k := min n m
    let tr : (Fin k → Fin n) × (Fin k → Fin m) → List ℕ × List ℕ := fun x =>
      (List.ofFn fun i => (x.1 i : ℕ), List.ofFn fun i => (x.2 i : ℕ))
    obtain ⟨x, hx, hmin⟩ := Set.exists_min_image
      {x | IsMatching n m (tr x).1 (tr x).2} (fun x => matchCost C (tr x).1 (tr x).2)
      (Set.toFinite _) ⟨(fun i => ⟨i, lt_of_lt_of_le i.2 (min_le_left n m)⟩,
        fun i => ⟨i, lt_of_lt_of_le i.2 (min_le_right n m)⟩), by
          refine ⟨?_, ?_, ?_, ?_, by simp [tr, k], by simp [tr, k]⟩
          · simp only [tr]
            rw [List.pairwise_ofFn]
            intro i j h; exact h
          · intro i hi
            simp only [tr, List.mem_ofFn] at hi
            obtain ⟨y, rfl⟩ := hi
            exact lt_of_lt_of_le y.2 (min_le_left n m)
          · simp only [tr]
            rw [List.nodup_ofFn]
            intro i j h; exact Fin.ext h
          · intro i hi
            simp only [tr, List.mem_ofFn] at hi
            obtain ⟨y, rfl⟩ := hi
            exact lt_of_lt_of_le y.2 (min_le_right n m)⟩
    refine ⟨tr x, hx, ?_⟩
    intro r c hrc
    let f : Fin k → Fin n := fun i => ⟨r[(i : ℕ)]'(by rw [hrc.rows_len]; exact i.2),
      hrc.rows_lt _ (List.getElem_mem _)⟩
    let g : Fin k → Fin m := fun i => ⟨c[(i : ℕ)]'(by rw [hrc.cols_len]; exact i.2),
      hrc.cols_lt _ (List.getElem_mem _)⟩
    have hf : (tr (f, g)).1 = r := by
      apply List.ext_getElem
      · simp [tr, hrc.rows_len, k]
      · intro i h1 h2; simp [tr, f]
    have hg : (tr (f, g)).2 = c := by
      apply List.ext_getElem
      · simp [tr, hrc.cols_len, k]
      · intro i h1 h2; simp [tr, g]
    have := hmin (f, g) (by show IsMatching n m (tr (f, g)).1 (tr (f, g)).2; rw [hf, hg]; exact hrc)
    simpa [hf, hg] using this
  choose lsa hlsa using key
  exact ⟨lsa, fun n m C => hlsa n m C⟩

theorem mapM_ok {α β : Type} {f : α → Except PyErr β} {g : α → β} {l : List α}
    (h : ∀ x ∈ l, f x = .ok (g x)) : l.mapM f = .ok (l.map g) := by
  induction l with
  | nil => rfl
  | cons a l ih =>
    rw [List.mapM_cons, h a (by simp), ih (fun x hx => h x (by simp [hx]))]
    rfl

theorem flatten_singles {α β : Type} (f : α → β) (l : List α) :
    (l.map fun k => [f k]).flatten = l.map f := by
  induction l with
  | nil => rfl
  | cons a l ih => simp [ih]

theorem filter_fst [DecidableEq ι] {l : List (ι × ι)} (hn : (l.map Prod.fst).Nodup) {k v : ι}
    (h : (k, v) ∈ l) : (l.filter fun p => p.1 = k) = [(k, v)] := by
  induction l with
  | nil => simp at h
  | cons a l ih =>
    rw [List.map_cons, List.nodup_cons] at hn
    rcases List.mem_cons.1 h with h' | h'
    · subst h'
      rw [List.filter_cons_of_pos (by simp)]
      congr 1
      rw [List.filter_eq_nil_iff]
      intro b hb
      simp only [decide_eq_true_eq]
      rintro e
      exact hn.1 (List.mem_map.2 ⟨b, hb, e⟩)
    · have : a.1 ≠ k := by
        rintro rfl
        exact hn.1 (List.mem_map.2 ⟨(a.1, v), h', rfl⟩)
      rw [List.filter_cons_of_neg (by simpa using this)]
      exact ih hn.2 h'

theorem totalDist_congr [DecidableEq ι] {o o' p p' : List (ι × Vec)} {r : List (ι × ι)}
    (h : ∀ x ∈ r, posOf p x.1 = posOf p' x.1 ∧ posOf o x.2 = posOf o' x.2) :
    totalDist o p r = totalDist o' p' r := by
  unfold totalDist
  congr 1
  apply List.map_congr_left
  intro x hx
  rw [(h x hx).1, (h x hx).2]

theorem map_posOf [DecidableEq ι] (f : ι → Vec) (l : List ι) (hn : l.Nodup) {k : ι} (hk : k ∈ l) :
    posOf (l.map fun x => (x, f x)) k = f k := by
  have : ((l.map fun x => (x, f x)).map Prod.fst).Nodup := by
    simpa [List.map_map, Function.comp_def] using hn
  exact posOf_mem this (p := (k, f k)) (List.mem_map.2 ⟨k, hk, rfl⟩)

/-- The NaN branch: structure of the result. -/
theorem nan_branch [LinearOrder ι] (lsa : LSA) (hl : IsLSA lsa) (orig : List (ι × Vec))
    (hn : (orig.map Prod.fst).Nodup) (pred : List (ι × PredRow))
    (hp : (pred.map Prod.fst).Perm (orig.map Prod.fst)) (hnan : ∃ p ∈ pred, p.2.hasNaN = true) :
    ∃ remap, assignRemap lsa orig pred = .ok remap ∧ remap.map Prod.fst = orig.map Prod.fst ∧
      IsBijection remap (orig.map Prod.fst) ∧
      (∀ p ∈ pred, p.2.hasNaN = true → (p.1, p.1) ∈ remap) ∧
      IsBijection (remap.filter fun p => p.1 ∈ (pred.filter fun r => !r.2.hasNaN).map Prod.fst)
        ((pred.filter fun r => !r.2.hasNaN).map Prod.fst) ∧
      ∀ remap', IsBijection remap' ((pred.filter fun r => !r.2.hasNaN).map Prod.fst) →
        totalDist orig (predCoords pred)
          (remap.filter fun p => p.1 ∈ (pred.filter fun r => !r.2.hasNaN).map Prod.fst) ≤
        totalDist orig (predCoords pred) remap' := by
  have hnp : (pred.map Prod.fst).Nodup := hp.nodup_iff.2 hn
  set sub := pred.filter fun r => !r.2.hasNaN with hsub
  have hsubl : (sub.map Prod.fst).Sublist (pred.map Prod.fst) := List.filter_sublist.map _
  have hns : (sub.map Prod.fst).Nodup := hsubl.nodup hnp
  let so : List (ι × Vec) := sub.map fun r => (r.1, posOf orig r.1)
  have hso : so.map Prod.fst = sub.map Prod.fst := by simp [so, Function.comp_def]
  have hsub_orig : ∀ k ∈ sub.map Prod.fst, k ∈ orig.map Prod.fst := fun k hk =>
    hp.mem_iff.1 (hsubl.subset hk)
  have hSO : sub.mapM (locRow orig) = .ok so := by
    apply mapM_ok
    intro r hr
    have hm : r.1 ∈ orig.map Prod.fst := hsub_orig _ (List.mem_map_of_mem hr)
    obtain ⟨x, hx, hx1⟩ := List.mem_map.1 hm
    have hg : dictGet? orig r.1 = some x.2 := by
      rw [← hx1]; exact dictGet?_of_mem hn hx
    have : posOf orig r.1 = x.2 := by rw [← hx1]; exact posOf_mem hn hx
    simp only [locRow, hg, this]
  obtain ⟨sr, s1, s2, s3, s4⟩ := core_ok lsa hl so sub (hso ▸ hns) hso.symm
  have hsrn : (sr.map Prod.fst).Nodup := s2.imp ne_of_lt
  rw [hso] at s3 s4
  let σ : ι → ι := fun l => if l ∈ sub.map Prod.fst then (lastTarget sr l).getD l else l
  have hσs : ∀ l ∈ sub.map Prod.fst, (l, σ l) ∈ sr := by
    intro l hlm
    obtain ⟨q, hq, rfl⟩ := List.mem_map.1 (s3.1.mem_iff.2 hlm)
    have e := lastTarget_of_mem hsrn (show (q.1, q.2) ∈ sr from hq)
    simp only [σ, hlm, if_true, e, Option.getD_some]
    exact hq
  have hmemsub : ∀ p ∈ pred, (p.1 ∈ sub.map Prod.fst ↔ p.2.hasNaN = false) := by
    intro p hpm
    constructor
    · intro h
      obtain ⟨q, hq, hqp⟩ := List.mem_map.1 h
      obtain ⟨hq1, hq2⟩ := List.mem_filter.1 hq
      have h1 := dictGet?_of_mem hnp (show (q.1, q.2) ∈ pred from hq1)
      have h2 := dictGet?_of_mem hnp (show (p.1, p.2) ∈ pred from hpm)
      rw [hqp, h2] at h1
      rw [Option.some.inj h1]
      simpa using hq2
    · intro h
      exact List.mem_map.2 ⟨p, List.mem_filter.2 ⟨hpm, by simp [h]⟩, rfl⟩
  have hparts : orig.mapM (nanPart pred sr) = .ok (orig.map fun k => [(k.1, σ k.1)]) := by
    apply mapM_ok
    intro k hk
    obtain ⟨p, hpm, hpk⟩ := List.mem_map.1 (hp.mem_iff.2 (List.mem_map_of_mem hk))
    have hg : dictGet? pred k.1 = some p.2 := by rw [← hpk]; exact dictGet?_of_mem hnp hpm
    simp only [nanPart, hg]
    by_cases hN : p.2.hasNaN = true
    · have : k.1 ∉ sub.map Prod.fst := by
        rw [← hpk, hmemsub p hpm]; simp [hN]
      simp only [hN, if_true, σ, this, if_false]
    · have hkm : k.1 ∈ sub.map Prod.fst := by
        rw [← hpk, hmemsub p hpm]; simpa using hN
      rw [if_neg hN, filter_fst hsrn (hσs _ hkm)]
  set remap := orig.map fun k => (k.1, σ k.1) with hremap
  have hrem1 : remap.map Prod.fst = orig.map Prod.fst := by simp [hremap, Function.comp_def]
  have hok : assignRemap lsa orig pred = .ok remap := by
    unfold assignRemap
    have : (pred.any fun r => r.2.hasNaN) = true := by
      rw [List.any_eq_true]; exact hnan
    rw [if_pos this]
    show (sub.mapM (locRow orig) >>= _) = _
    rw [hSO]
    show (assignCore lsa so (sub.map Prod.snd) >>= _) = _
    rw [s1]
    show (orig.mapM (nanPart pred sr)).map List.flatten = _
    rw [hparts]
    show Except.ok _ = _
    congr 1
    rw [hremap]
    exact flatten_singles _ _
  have hσmem : ∀ l ∈ orig.map Prod.fst, σ l ∈ orig.map Prod.fst ∧
      (l ∈ sub.map Prod.fst → σ l ∈ sub.map Prod.fst) := by
    intro l hlm
    by_cases h : l ∈ sub.map Prod.fst
    · have := s3.2.mem_iff.1 (List.mem_map_of_mem (f := Prod.snd) (hσs l h))
      exact ⟨hsub_orig _ this, fun _ => this⟩
    · simp only [σ, h, if_false]; exact ⟨hlm, fun h' => absurd h' (by simpa using h)⟩
  have hsrn2 : (sr.map Prod.snd).Nodup := s3.2.nodup_iff.2 hns
  have hσinj : ∀ l ∈ orig.map Prod.fst, ∀ l' ∈ orig.map Prod.fst, σ l = σ l' → l = l' := by
    intro l h1 l' h2 he
    by_cases h : l ∈ sub.map Prod.fst <;> by_cases h' : l' ∈ sub.map Prod.fst
    · have a := hσs l h
      have b := hσs l' h'
      rw [he] at a
      have : ∀ (r : List (ι × ι)), (r.map Prod.snd).Nodup → ∀ x y v, (x, v) ∈ r → (y, v) ∈ r → x = y := by
        intro r hr x y v hx hy
        have := (List.inj_on_of_nodup_map hr) hx hy rfl
        exact congrArg Prod.fst this
      exact this sr hsrn2 _ _ _ a b
    · have := (hσmem l h1).2 h
      rw [he] at this
      simp only [σ, h', if_false] at this
    · have := (hσmem l' h2).2 h'
      rw [← he] at this
      simp only [σ, h, if_false] at this
    · simpa only [σ, h, h', if_false] using he
  have hbij : IsBijection remap (orig.map Prod.fst) := by
    refine ⟨by rw [hrem1], ?_⟩
    have hmm : remap.map Prod.snd = (orig.map Prod.fst).map σ := by
      simp [hremap, Function.comp_def]
    rw [hmm]
    have hnd : ((orig.map Prod.fst).map σ).Nodup :=
      List.Nodup.map_on (fun a ha b hb h => hσinj a ha b hb h) hn
    refine (hnd.subperm ?_).perm_of_length_le (by simp)
    intro x hx
    obtain ⟨l, hlm, rfl⟩ := List.mem_map.1 hx
    exact (hσmem l hlm).1
  have hfilt : (remap.filter fun p => p.1 ∈ sub.map Prod.fst).Perm sr := by
    have hnr : remap.Nodup := List.Nodup.of_map Prod.fst (hrem1 ▸ hn)
    rw [List.perm_ext_iff_of_nodup (hnr.filter _) (List.Nodup.of_map _ hsrn)]
    intro p
    rw [List.mem_filter, hremap, List.mem_map]
    constructor
    · rintro ⟨⟨k, hk, rfl⟩, hk'⟩
      exact hσs _ (by simpa using hk')
    · intro hpm
      have hps : p.1 ∈ sub.map Prod.fst := s3.1.mem_iff.1 (List.mem_map_of_mem hpm)
      obtain ⟨k, hk, hkp⟩ := List.mem_map.1 (hsub_orig _ hps)
      refine ⟨⟨k, hk, ?_⟩, by simpa using hps⟩
      have a := lastTarget_of_mem hsrn (hσs _ hps)
      have b := lastTarget_of_mem hsrn (show (p.1, p.2) ∈ sr from hpm)
      rw [hkp]
      rw [a] at b
      rw [Option.some.inj b]
  refine ⟨remap, hok, hrem1, hbij, ?_, ⟨(hfilt.map _).trans s3.1, (hfilt.map _).trans s3.2⟩, ?_⟩
  · intro p hpm hN
    obtain ⟨k, hk, hkp⟩ := List.mem_map.1 (hp.mem_iff.1 (List.mem_map_of_mem hpm))
    refine List.mem_map.2 ⟨k, hk, ?_⟩
    have : p.1 ∉ sub.map Prod.fst := by rw [hmemsub p hpm]; simp [hN]
    rw [hkp]
    simp only [σ, this, if_false]
  · intro remap' hb
    rw [totalDist_perm hfilt]
    have hcong : ∀ r : List (ι × ι), IsBijection r (sub.map Prod.fst) →
        totalDist orig (predCoords pred) r = totalDist so (predCoords sub) r := by
      intro r hr
      apply totalDist_congr
      intro x hx
      have h1 : x.1 ∈ sub.map Prod.fst := hr.1.mem_iff.1 (List.mem_map_of_mem hx)
      have h2 : x.2 ∈ sub.map Prod.fst := hr.2.mem_iff.1 (List.mem_map_of_mem hx)
      constructor
      · obtain ⟨q, hq, hqx⟩ := List.mem_map.1 h1
        have hq' : q ∈ pred := (List.mem_filter.1 hq).1
        have n1 : ((predCoords pred).map Prod.fst).Nodup := by
          simpa [predCoords, Function.comp_def] using hnp
        have n2 : ((predCoords sub).map Prod.fst).Nodup := by
          simpa [predCoords, Function.comp_def] using hns
        rw [← hqx]
        rw [posOf_mem n1 (p := (q.1, (q.2.e.getD 0, q.2.n.getD 0))) (List.mem_map.2 ⟨q, hq', rfl⟩),
          posOf_mem n2 (p := (q.1, (q.2.e.getD 0, q.2.n.getD 0))) (List.mem_map.2 ⟨q, hq, rfl⟩)]
      · have : so = (sub.map Prod.fst).map fun l => (l, posOf orig l) := by
          simp [so, Function.comp_def]
        rw [this, map_posOf _ _ hns h2]
    rw [hcong _ s3, hcong _ hb]
    exact s4 remap' hb

end SST.Field
