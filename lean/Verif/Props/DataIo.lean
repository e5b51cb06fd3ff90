import Verif.Model.DataIO
import Mathlib.Tactic.IntervalCases
import Mathlib.Data.List.TakeWhile

/-! # Properties of the file helpers (C79, C80, C128, C129) -/

namespace SST.DataIO
open SST

/-! ## Names -/

theorem lastDot_none {s : Str} : lastDot s = none ↔ '.' ∉ s := by
  induction s with
  | nil => simp [lastDot]
  | cons c cs ih =>
    simp only [lastDot]
    cases h : lastDot cs with
    | some d =>
      have : '.' ∈ cs := by
        by_contra hc
        rw [ih.2 hc] at h
        cases h
      simp [this]
    | none =>
      have := ih.1 h
      by_cases hc : c = '.'
      · simp [hc]
      · simp [hc, this, Ne.symm hc]

theorem lastDot_append (b e : Str) (he : '.' ∉ e) : lastDot (b ++ '.' :: e) = some b.length := by
  induction b with
  | nil => simp [lastDot, lastDot_none.2 he]
  | cons c b ih => simp [lastDot, ih]

/-- Every name either has no dot or splits at its last dot. -/
theorem name_cases (s : Str) : '.' ∉ s ∨ ∃ b e, s = b ++ '.' :: e ∧ '.' ∉ e := by
  induction s with
  | nil => simp
  | cons c cs ih =>
    rcases ih with h | ⟨b, e, rfl, he⟩
    · by_cases hc : c = '.'
      · exact .inr ⟨[], cs, by simp [hc], h⟩
      · exact .inl (by simp [h, Ne.symm hc])
    · exact .inr ⟨c :: b, e, rfl, he⟩

theorem splitext_dot (b e : Str) (he : '.' ∉ e) :
    splitext (b ++ '.' :: e) = if b.any (· ≠ '.') then (b, '.' :: e) else (b ++ '.' :: e, []) := by
  unfold splitext
  rw [lastDot_append b e he]
  simp

theorem splitext_nodot (s : Str) (h : '.' ∉ s) : splitext s = (s, []) := by
  unfold splitext
  rw [lastDot_none.2 h]

/-- The extension of a name is `.e` exactly if the name is a stem that is not all dots followed by `.e`. -/
theorem splitext_ext (s e : Str) (he : '.' ∉ e) : (splitext s).2 = '.' :: e ↔ ∃ b, s = b ++ '.' :: e ∧ ∃ c ∈ b, c ≠ '.' := by
  constructor
  · intro h
    rcases name_cases s with hn | ⟨b, e', rfl, he'⟩
    · rw [splitext_nodot s hn] at h
      simp at h
    · rw [splitext_dot b e' he'] at h
      split_ifs at h with hb
      · simp only [List.cons.injEq, true_and] at h
        subst h
        rw [List.any_eq_true] at hb
        obtain ⟨c, hc, hc'⟩ := hb
        exact ⟨b, rfl, c, hc, by simpa using hc'⟩
  · rintro ⟨b, rfl, c, hc, hc'⟩
    rw [splitext_dot b e he, if_pos]
    rw [List.any_eq_true]
    exact ⟨c, hc, by simpa using hc'⟩

/-! ## C80 -/

open Classical in
/-- C80: with extension `.e` (no further dot), the result holds exactly the names of the form stem + `.e` whose stem is not made of dots
only, each as often as listed, and sorted by code points when asked. -/
theorem C80_filter (entries : List (Str × Bool)) (e : Str) (he : '.' ∉ e) (sort : Bool) :
    ∃ files, getfiles (some entries) (some ('.' :: e)) sort = .ok files ∧
      (∀ name, files.count name = if (∃ b, name = b ++ '.' :: e ∧ ∃ c ∈ b, c ≠ '.') then (entries.map fun x : Str × Bool => x.1).count name else 0) ∧
      (sort = true → files.Pairwise (· ≤ ·)) ∧ (sort = false → files.Sublist (entries.map fun x : Str × Bool => x.1)) := by
  refine ⟨_, rfl, ?_, ?_, ?_⟩
  all_goals simp only [selected]
  · intro name
    have hcount : (List.filter (fun fn => decide ((splitext fn).2 = '.' :: e)) (entries.map fun x : Str × Bool => x.1)).count name =
        if (∃ b, name = b ++ '.' :: e ∧ ∃ c ∈ b, c ≠ '.') then (entries.map fun x : Str × Bool => x.1).count name else 0 := by
      split_ifs with h
      · rw [List.count_filter]
        exact decide_eq_true ((splitext_ext name e he).2 h)
      · rw [List.count_eq_zero]
        intro hm
        rw [List.mem_filter] at hm
        exact h ((splitext_ext name e he).1 (of_decide_eq_true hm.2))
    cases sort with
    | false => simpa using hcount
    | true =>
      simp only [if_true]
      rw [(List.mergeSort_perm _ _).count_eq]
      exact hcount
  · rintro rfl
    simp only [if_true]
    have := List.pairwise_mergeSort (le := fun a b : Str => decide (a ≤ b)) (by intro a b c h1 h2; simp at *; exact h1.trans h2)
      (by intro a b; simp; exact le_total a b) (List.filter (fun fn => decide ((splitext fn).2 = '.' :: e)) (entries.map fun x : Str × Bool => x.1))
    exact this.imp (by intro a b h; simpa using h)
  · rintro rfl
    simp only [Bool.false_eq_true, if_false]
    exact List.filter_sublist

/-- C80: without extension, everything listed is returned (sorted when asked). -/
theorem C80_all (entries : List (Str × Bool)) (sort : Bool) : ∃ files, getfiles (some entries) none sort = .ok files ∧
    files.Perm (entries.map fun x : Str × Bool => x.1) ∧ (sort = true → files.Pairwise (· ≤ ·)) := by
  refine ⟨_, rfl, ?_, ?_⟩
  all_goals simp only [selected]
  · cases sort with
    | false => simp
    | true => simpa using List.mergeSort_perm _ _
  · rintro rfl
    simp only [if_true]
    have := List.pairwise_mergeSort (le := fun a b : Str => decide (a ≤ b)) (by intro a b c h1 h2; simp at *; exact h1.trans h2)
      (by intro a b; simp; exact le_total a b) (entries.map fun x : Str × Bool => x.1)
    exact this.imp (by intro a b h; simpa using h)

/-- C80: an extension given without its dot matches nothing. -/
theorem C80_no_dot (entries : List (Str × Bool)) (e : Str) (h : e ≠ []) (hd : e.head? ≠ some '.') (sort : Bool) :
    getfiles (some entries) (some e) sort = .ok [] := by
  have : (entries.map fun x : Str × Bool => x.1).filter (fun fn => decide ((splitext fn).2 = e)) = [] := by
    rw [List.filter_eq_nil_iff]
    intro s _
    simp only [decide_eq_true_eq]
    rcases name_cases s with hn | ⟨b, e', rfl, he'⟩
    · rw [splitext_nodot s hn]
      exact fun hc => h hc.symm
    · rw [splitext_dot b e' he']
      split_ifs
      · rintro rfl; simp at hd
      · exact fun hc => h hc.symm
  unfold getfiles
  simp only [selected, this]
  cases sort <;> simp

/-- C80: the order in which the system lists the directory does not matter when sorting. -/
theorem C80_order_free (entries entries' : List (Str × Bool)) (h : entries.Perm entries') (ext : Option Str) :
    getfiles (some entries) ext true = getfiles (some entries') ext true := by
  have hs : ∀ l l' : List Str, l.Perm l' → l.mergeSort (fun a b => decide (a ≤ b)) = l'.mergeSort (fun a b => decide (a ≤ b)) := by
    intro l l' hp
    have hsort : ∀ l : List Str, (l.mergeSort (fun a b => decide (a ≤ b))).Pairwise (· ≤ ·) := fun l =>
      (List.pairwise_mergeSort (le := fun a b : Str => decide (a ≤ b)) (by intro a b c h1 h2; simp at *; exact h1.trans h2)
        (by intro a b; simp; exact le_total a b) l).imp (by intro a b h; simpa using h)
    exact List.Perm.eq_of_pairwise (fun a b _ _ h1 h2 => le_antisymm h1 h2) (hsort l) (hsort l')
      (((List.mergeSort_perm l _).trans hp).trans (List.mergeSort_perm l' _).symm)
  unfold getfiles
  simp only [if_true]
  congr 1
  cases ext with
  | none => exact hs _ _ (h.map _)
  | some x => exact hs _ _ ((h.map _).filter _)

example : getfiles (some [("b.csv".toList, false), (".csv".toList, false), ("a.b.csv".toList, false), ("c.CSV".toList, false)]) (some ".csv".toList) false =
    .ok ["b.csv".toList, "a.b.csv".toList] := by
  decide +kernel

/-! ## C129 -/

/-- C129 is violated: a directory whose name has the extension is returned as a file. -/
theorem C129_violated_directory (entries : List (Str × Bool)) (b e : Str) (he : '.' ∉ e) (hb : ∃ c ∈ b, c ≠ '.') (hd : (b ++ '.' :: e, true) ∈ entries) (sort : Bool) :
    ∃ files, getfiles (some entries) (some ('.' :: e)) sort = .ok files ∧ b ++ '.' :: e ∈ files := by
  obtain ⟨files, h, hc, _⟩ := C80_filter entries e he sort
  refine ⟨files, h, ?_⟩
  rw [← List.count_pos_iff, hc, if_pos ⟨b, rfl, hb⟩, List.count_pos_iff]
  exact List.mem_map.2 ⟨_, hd, rfl⟩

/-- C129 (the part that holds): in a directory that contains only files, only files are returned, and every name returned is listed. -/
theorem C129_files_partial (entries : List (Str × Bool)) (hf : ∀ x ∈ entries, x.2 = false) (ext : Option Str) (sort : Bool) (files : List Str)
    (h : getfiles (some entries) ext sort = .ok files) : ∀ f ∈ files, (f, false) ∈ entries := by
  have key : ∀ f ∈ files, f ∈ entries.map fun x : Str × Bool => x.1 := by
    unfold getfiles at h
    simp only [Except.ok.injEq] at h
    subst h
    intro f hf
    have h2 : f ∈ selected ext (entries.map fun e : Str × Bool => e.1) := by
      cases sort with
      | false => simpa using hf
      | true =>
        simp only [if_true] at hf
        rwa [List.mem_mergeSort] at hf
    cases ext with
    | none => exact h2
    | some x => exact (List.mem_filter.1 h2).1
  intro f hfm
  obtain ⟨⟨n, b⟩, hx, rfl⟩ := List.mem_map.1 (key f hfm)
  have : b = false := hf _ hx
  subst this
  exact hx

example : ∃ files, getfiles (some [("x.nc".toList, true)]) (some ".nc".toList) true = .ok files ∧ "x.nc".toList ∈ files :=
  C129_violated_directory [("x.nc".toList, true)] ['x'] ['n', 'c'] (by decide) ⟨'x', by simp, by decide⟩ (by simp) true

/-! ## C79 -/

/-- The target path of a row. -/
def target (dir row : Str) : Option Str := (lastWord row).map fun u => join dir (basename u)

/-- The content of a URL. -/
def content (web : Web) (u : Str) : Option (List UInt8) := (web u).map List.flatten

theorem run_append (fs : FS) (a b : List Act) : run fs (a ++ b) = run (run fs a) b := by simp [run, List.foldl_append]

theorem run_blocks (fs : FS) (p : Str) (blocks : List (List UInt8)) (c : List UInt8) (hc : fs p = some c) :
    run fs (blocks.map (Act.append p)) = fun q => if q = p then some (c ++ blocks.flatten) else fs q := by
  induction blocks generalizing fs c with
  | nil => funext q; by_cases h : q = p <;> simp [run, h, hc]
  | cons b bs ih =>
    have := ih (Act.apply fs (.append p b)) (c ++ b) (by simp [Act.apply, hc])
    simp only [List.map_cons, run, List.foldl_cons] at this ⊢
    rw [this]
    funext q
    by_cases h : q = p <;> simp [Act.apply, h]

theorem download_run {web : Web} {u p fn : Str} {acts : List Act} (h : download web u p fn = (acts, none)) (fs : FS) :
    ∃ c, content web u = some c ∧ fn ≠ [] ∧ run fs acts = fun q => if q = p then some c else fs q := by
  unfold download at h
  cases hw : web u with
  | none => rw [hw] at h; simp at h
  | some blocks =>
    rw [hw] at h
    simp only at h
    split_ifs at h with hf
    · simp at h
    · simp only [Prod.mk.injEq, and_true] at h
      subst h
      refine ⟨blocks.flatten, by simp [content, hw], hf, ?_⟩
      have := run_blocks (Act.apply fs (.create p)) p blocks [] (by simp [Act.apply])
      simp only [run, List.foldl_cons, Act.apply] at this ⊢
      rw [this]
      funext q
      by_cases h : q = p <;> simp [h]

/-- Inversion of one iteration. -/
theorem wget_cons_ok {web : Web} {dir row : Str} {rows : List Str} {fs : FS} {acts : List Act} (h : wgetRows web dir (row :: rows) fs = (acts, none)) :
    ∃ u, lastWord row = some u ∧
      (((fs (join dir (basename u))).isSome = true ∧ wgetRows web dir rows fs = (acts, none)) ∨
       (fs (join dir (basename u)) = none ∧ ∃ a b c, acts = a ++ b ∧ content web u = some c ∧ download web u (join dir (basename u)) (basename u) = (a, none) ∧
          (run fs a = fun q => if q = join dir (basename u) then some c else fs q) ∧ wgetRows web dir rows (run fs a) = (b, none))) := by
  simp only [wgetRows] at h
  cases hu : lastWord row with
  | none => rw [hu] at h; simp at h
  | some u =>
    rw [hu] at h
    simp only at h
    refine ⟨u, rfl, ?_⟩
    by_cases hs : (fs (join dir (basename u))).isSome = true
    · rw [if_pos hs] at h
      exact .inl ⟨hs, h⟩
    · rw [if_neg hs] at h
      right
      refine ⟨by simpa using hs, ?_⟩
      rcases hd : download web u (join dir (basename u)) (basename u) with ⟨a, e⟩
      rw [hd] at h
      cases e with
      | some e => simp at h
      | none =>
        simp only [Prod.mk.injEq] at h
        obtain ⟨c, hc, _, hrun⟩ := download_run hd fs
        exact ⟨a, _, c, h.1.symm, hc, rfl, hrun, Prod.ext rfl h.2⟩

/-- Every file written by a run (complete, failed or interrupted) was absent before the run. -/
theorem wget_acts_absent (web : Web) (dir : Str) (rows : List Str) (fs : FS) :
    ∀ a ∈ (wgetRows web dir rows fs).1, ∀ p, (a = .create p ∨ ∃ b, a = .append p b) → fs p = none := by
  induction rows generalizing fs with
  | nil => simp [wgetRows]
  | cons row rows ih =>
    intro a ha p hp
    simp only [wgetRows] at ha
    cases hu : lastWord row with
    | none => rw [hu] at ha; simp at ha
    | some u =>
      rw [hu] at ha
      simp only at ha
      by_cases hs : (fs (join dir (basename u))).isSome = true
      · rw [if_pos hs] at ha
        exact ih fs a ha p hp
      · rw [if_neg hs] at ha
        have hnone : fs (join dir (basename u)) = none := by simpa using hs
        have hmine : ∀ acts e, download web u (join dir (basename u)) (basename u) = (acts, e) → a ∈ acts → p = join dir (basename u) := by
          intro acts e hd ha
          unfold download at hd
          cases hw : web u with
          | none =>
            rw [hw] at hd
            simp only [Prod.mk.injEq] at hd
            rw [← hd.1] at ha
            simp only [List.mem_singleton] at ha
            subst ha
            rcases hp with h | ⟨b, h⟩ <;> cases h
          | some blocks =>
            rw [hw] at hd
            simp only at hd
            split_ifs at hd with hf
            · simp only [Prod.mk.injEq] at hd
              rw [← hd.1] at ha
              simp only [List.mem_singleton] at ha
              subst ha
              rcases hp with h | ⟨b, h⟩ <;> cases h
            · simp only [Prod.mk.injEq] at hd
              rw [← hd.1] at ha
              simp only [List.mem_cons, List.mem_map] at ha
              rcases ha with rfl | rfl | ⟨b, _, rfl⟩
              · rcases hp with h | ⟨b, h⟩ <;> cases h
              · rcases hp with h | ⟨b, h⟩ <;> cases h
                rfl
              · rcases hp with h | ⟨b, h⟩ <;> cases h
                rfl
        rcases hd : download web u (join dir (basename u)) (basename u) with ⟨acts, e⟩
        rw [hd] at ha
        cases e with
        | some e => rw [hmine acts _ hd ha]; exact hnone
        | none =>
          simp only [List.mem_append] at ha
          rcases ha with ha | ha
          · rw [hmine acts _ hd ha]; exact hnone
          · have := ih _ a ha p hp
            obtain ⟨c, _, _, hrun⟩ := download_run hd fs
            rw [hrun] at this
            by_cases hq : p = join dir (basename u)
            · rw [hq]; exact hnone
            · simpa [hq] using this

theorem run_untouched (fs : FS) (acts : List Act) (p : Str) (h : ∀ a ∈ acts, ¬ (a = .create p ∨ ∃ b, a = .append p b)) : run fs acts p = fs p := by
  induction acts generalizing fs with
  | nil => rfl
  | cons a acts ih =>
    have h1 := ih (Act.apply fs a) (fun b hb => h b (List.mem_cons_of_mem _ hb))
    have h2 := h a List.mem_cons_self
    simp only [run, List.foldl_cons] at h1 ⊢
    rw [h1]
    cases a with
    | request u => rfl
    | create q =>
      have : p ≠ q := fun hc => h2 (.inl (by rw [hc]))
      simp [Act.apply, this]
    | append q b =>
      have : p ≠ q := fun hc => h2 (.inr ⟨b, by rw [hc]⟩)
      simp [Act.apply, this]

/-- C79: a file that exists before a run is never modified, whether the run completes, fails or is interrupted anywhere. -/
theorem C79_existing_untouched (web : Web) (dir : Str) (rows : List Str) (fs : FS) (k : ℕ) (p : Str) (c : List UInt8) (h : fs p = some c) :
    run fs ((wgetRows web dir rows fs).1.take k) p = some c := by
  rw [run_untouched, h]
  intro a ha hp
  have := wget_acts_absent web dir rows fs a (List.mem_of_mem_take ha) p hp
  rw [h] at this
  cases this

/-- C79: after a run without error every listed target exists. -/
theorem C79_complete (web : Web) (dir : Str) (rows : List Str) (fs : FS) (acts : List Act) (h : wgetRows web dir rows fs = (acts, none)) :
    ∀ row ∈ rows, ∃ p, target dir row = some p ∧ (run fs acts p).isSome := by
  induction rows generalizing fs acts with
  | nil => simp
  | cons row rows ih =>
    obtain ⟨u, hu, hcase⟩ := wget_cons_ok h
    intro r hr
    rcases List.mem_cons.1 hr with rfl | hr
    · refine ⟨join dir (basename u), by simp [target, hu], ?_⟩
      rcases hcase with ⟨hs, hrest⟩ | ⟨hs, a, b, c, rfl, hc, _, hrun, hrest⟩
      · obtain ⟨c, hc⟩ := Option.isSome_iff_exists.1 hs
        have := C79_existing_untouched web dir rows fs acts.length _ c hc
        rw [hrest, List.take_length] at this
        rw [this]; rfl
      · have h1 : run fs a (join dir (basename u)) = some c := by rw [hrun]; simp
        have := C79_existing_untouched web dir rows (run fs a) b.length _ c h1
        rw [hrest, List.take_length] at this
        rw [run_append, this]; rfl
    · rcases hcase with ⟨hs, hrest⟩ | ⟨hs, a, b, c, rfl, hc, _, hrun, hrest⟩
      · exact ih fs acts hrest r hr
      · obtain ⟨p, hp, h2⟩ := ih _ b hrest r hr
        exact ⟨p, hp, by rwa [run_append]⟩

/-- If every target exists, nothing is requested or written, whatever the server holds. -/
theorem wget_idle (web : Web) (dir : Str) (rows : List Str) (fs : FS) (h : ∀ row ∈ rows, ∃ p, target dir row = some p ∧ (fs p).isSome) :
    wgetRows web dir rows fs = ([], none) := by
  induction rows with
  | nil => rfl
  | cons row rows ih =>
    obtain ⟨p, hp, hs⟩ := h row List.mem_cons_self
    cases hu : lastWord row with
    | none => simp [target, hu] at hp
    | some u =>
      have hp' : join dir (basename u) = p := by simpa [target, hu] using hp
      simp only [wgetRows, hu]
      rw [hp', if_pos hs]
      exact ih fun r hr => h r (List.mem_cons_of_mem _ hr)

/-- C79: a second run after a complete one makes no request and writes nothing, even if the server has changed. -/
theorem C79_idempotent (web web' : Web) (dir : Str) (rows : List Str) (fs : FS) (acts : List Act) (h : wgetRows web dir rows fs = (acts, none)) :
    wgetRows web' dir rows (run fs acts) = ([], none) :=
  wget_idle web' dir rows _ (C79_complete web dir rows fs acts h)

/-- C79 (crash recovery, the part that holds): if a complete run from `fs` would give `fs'`, and the interrupted run left every file either as
before or complete, then the re-run succeeds and gives exactly `fs'`.
Missing: interruption in the middle of a file (`C79_violated_truncated`). -/
theorem C79_recovery_partial (web : Web) (dir : Str) (rows : List Str) (fs : FS) (acts : List Act) (h : wgetRows web dir rows fs = (acts, none)) (fsc : FS)
    (hc : ∀ p, fsc p = fs p ∨ fsc p = run fs acts p) :
    ∃ acts', wgetRows web dir rows fsc = (acts', none) ∧ run fsc acts' = run fs acts := by
  induction rows generalizing fs fsc acts with
  | nil =>
    simp only [wgetRows, Prod.mk.injEq, and_true] at h
    subst h
    refine ⟨[], rfl, ?_⟩
    funext p
    rcases hc p with h | h <;> simpa [run] using h
  | cons row rows ih =>
    obtain ⟨u, hu, hcase⟩ := wget_cons_ok h
    rcases hcase with ⟨hs, hrest⟩ | ⟨hs, a, b, c, rfl, hcont, hd, hrun, hrest⟩
    · obtain ⟨acts', h1, h2⟩ := ih fs acts hrest fsc hc
      refine ⟨acts', ?_, h2⟩
      obtain ⟨c, hcc⟩ := Option.isSome_iff_exists.1 hs
      have hfin := C79_existing_untouched web dir rows fs acts.length _ c hcc
      rw [hrest, List.take_length] at hfin
      have : (fsc (join dir (basename u))).isSome = true := by
        rcases hc (join dir (basename u)) with h | h <;> rw [h]
        · exact hs
        · rw [hfin]; rfl
      simp only [wgetRows, hu]
      rw [if_pos this, h1]
    · have h1 : run fs a (join dir (basename u)) = some c := by rw [hrun]; simp
      have hfin := C79_existing_untouched web dir rows (run fs a) b.length _ c h1
      rw [hrest, List.take_length, ← run_append] at hfin
      by_cases hsc : (fsc (join dir (basename u))).isSome = true
      · obtain ⟨acts', h3, h4⟩ := ih (run fs a) b hrest fsc (by
          intro p
          rw [← run_append]
          rcases hc p with h | h
          · by_cases hp : p = join dir (basename u)
            · subst hp
              rw [h, hs] at hsc
              simp at hsc
            · left
              rw [h, hrun]
              simp [hp]
          · exact .inr h)
        refine ⟨acts', ?_, by rw [h4, run_append]⟩
        simp only [wgetRows, hu]
        rw [if_pos hsc, h3]
      · obtain ⟨c', hc', _, hrunc⟩ := download_run hd fsc
        rw [hcont] at hc'
        cases hc'
        obtain ⟨acts', h3, h4⟩ := ih (run fs a) b hrest (run fsc a) (by
          intro p
          rw [← run_append, hrunc]
          by_cases hp : p = join dir (basename u)
          · left; rw [hrun]; simp [hp]
          · rcases hc p with h | h
            · left; rw [hrun]; simp [hp, h]
            · right; simp [hp, h])
        refine ⟨a ++ acts', ?_, by rw [run_append, h4, run_append]⟩
        simp only [wgetRows, hu]
        rw [if_neg hsc, hd]
        simp only [h3]

/-- C79 is violated: a download interrupted in the middle of a file leaves a truncated file, and no number of re-runs, with whatever list
and server, ever repairs it. -/
theorem C79_violated_truncated (web : Web) (dir row u : Str) (hu : lastWord row = some u) (hne : basename u ≠ []) (blocks : List (List UInt8)) (hw : web u = some blocks)
    (fs : FS) (habs : fs (join dir (basename u)) = none) (j : ℕ) (reruns : List (Web × List Str)) :
    (reruns.foldl (fun (g : FS) (r : Web × List Str) => run g (wgetRows r.1 dir r.2 g).1) (run fs ((wgetRows web dir [row] fs).1.take (2 + j))))
      (join dir (basename u)) = some (blocks.take j).flatten := by
  have hstart : run fs ((wgetRows web dir [row] fs).1.take (2 + j)) (join dir (basename u)) = some (blocks.take j).flatten := by
    simp only [wgetRows, hu, habs, Option.isSome_none, Bool.false_eq_true, if_false, download, hw, if_neg hne, List.append_nil]
    rw [show 2 + j = j + 1 + 1 by omega]
    simp only [List.take_succ_cons, ← List.map_take]
    have := run_blocks (Act.apply fs (.create (join dir (basename u)))) (join dir (basename u)) (blocks.take j) [] (by simp [Act.apply])
    simp only [run, List.foldl_cons, Act.apply] at this ⊢
    rw [this]
    simp
  generalize run fs ((wgetRows web dir [row] fs).1.take (2 + j)) = g at hstart
  induction reruns generalizing g with
  | nil => exact hstart
  | cons r reruns ih =>
    simp only [List.foldl_cons]
    apply ih
    have := C79_existing_untouched r.1 dir r.2 g (wgetRows r.1 dir r.2 g).1.length _ _ hstart
    rwa [List.take_length] at this

/-- C79: a blank row stops the run with `IndexError`, an unreachable URL with an `OSError`; earlier files stay. -/
theorem C79_errors (web : Web) (dir row : Str) (rows : List Str) (fs : FS) :
    ((∀ c ∈ row, isWs c = true) → wgetRows web dir (row :: rows) fs = ([], some .indexError)) ∧
    (∀ u, lastWord row = some u → web u = none → fs (join dir (basename u)) = none → wgetRows web dir (row :: rows) fs = ([.request u], some .osError)) := by
  constructor
  · intro h
    have : lastWord row = none := by
      unfold lastWord
      have : row.reverse.dropWhile isWs = [] := by
        rw [List.dropWhile_eq_nil_iff]
        intro c hc
        exact h c (List.mem_reverse.1 hc)
      simp [this]
    simp only [wgetRows, this]
  · intro u hu hw hfs
    simp only [wgetRows, hu, hfs, Option.isSome_none, Bool.false_eq_true, if_false, download, hw]

example : lastWord "wget -N https://host/data/x.nc\n".toList = some "https://host/data/x.nc".toList ∧
    basename "https://host/data/x.nc".toList = "x.nc".toList := by
  constructor <;> decide +kernel

example : ∃ acts, wgetRows (fun _ => some [[1, 2], [3]]) ['d'] ["wget http://h/x.nc\n".toList, "wget http://h/y.nc\n".toList] (fun _ => none) = (acts, none) := by
  refine ⟨_, Prod.ext rfl ?_⟩
  decide +kernel

/-! ## C128 -/

/-- C128, C79: a row whose last word is a URL `host/name` stores the content of that URL as `name` in the given directory, and nothing else. -/
theorem C128_names (web : Web) (dir host name lead trail : Str) (hs : '/' ∉ name) (hne : name ≠ []) (hw : ∀ c ∈ host ++ '/' :: name, isWs c = false)
    (ht : ∀ c ∈ trail, isWs c = true) (hl : lead = [] ∨ ∃ l w, lead = l ++ [w] ∧ isWs w = true) (blocks : List (List UInt8)) (hb : web (host ++ '/' :: name) = some blocks)
    (fs : FS) (hf : fs (dir ++ '/' :: name) = none) :
    ∃ acts, wgetRows web dir [lead ++ (host ++ '/' :: name) ++ trail] fs = (acts, none) ∧
      run fs acts = fun q => if q = dir ++ '/' :: name then some blocks.flatten else fs q := by
  have hword : lastWord (lead ++ (host ++ '/' :: name) ++ trail) = some (host ++ '/' :: name) := by
    have hd : (lead ++ (host ++ '/' :: name) ++ trail).reverse.dropWhile isWs = (host ++ '/' :: name).reverse ++ lead.reverse := by
      rw [List.reverse_append, List.reverse_append, List.dropWhile_append_of_pos (fun c hc => ht c (List.mem_reverse.1 hc))]
      obtain ⟨x, xs, hx⟩ : ∃ x xs, (host ++ '/' :: name).reverse = x :: xs := by
        cases hr : (host ++ '/' :: name).reverse with
        | nil => simp at hr
        | cons x xs => exact ⟨x, xs, rfl⟩
      have hx' : isWs x = false := hw x (List.mem_reverse.1 (by rw [hx]; simp))
      rw [hx, List.cons_append, List.dropWhile_cons_of_neg (by simp [hx'])]
    have htk : ((host ++ '/' :: name).reverse ++ lead.reverse).takeWhile (fun c => !isWs c) = (host ++ '/' :: name).reverse := by
      rw [List.takeWhile_append_of_pos (fun c hc => by simp [hw c (List.mem_reverse.1 hc)])]
      rcases hl with rfl | ⟨l, w, rfl, hww⟩
      · simp
      · have : (l ++ [w]).reverse.takeWhile (fun c => !isWs c) = [] := by
          rw [List.reverse_append, List.reverse_singleton, List.singleton_append, List.takeWhile_cons_of_neg (by simp [hww])]
        rw [this, List.append_nil]
    unfold lastWord
    simp only [hd, htk]
    rw [if_neg (by simp), List.reverse_reverse]
  have hbase : basename (host ++ '/' :: name) = name := by
    unfold basename
    rw [List.reverse_append, List.reverse_cons, List.append_assoc,
      List.takeWhile_append_of_pos (fun c hc => by
        have : c ≠ '/' := fun h => hs (h ▸ List.mem_reverse.1 hc)
        simpa using this)]
    simp
  have hd : download web (host ++ '/' :: name) (dir ++ '/' :: name) name = (.request (host ++ '/' :: name) :: .create (dir ++ '/' :: name) :: blocks.map (Act.append (dir ++ '/' :: name)), none) := by
    simp [download, hb, hne]
  obtain ⟨c, hc, -, hrun⟩ := download_run hd fs
  have hcb : c = blocks.flatten := by
    have : some blocks.flatten = some c := by rw [← hc]; simp [content, hb]
    exact (Option.some.inj this).symm
  refine ⟨_, ?_, by rw [← hcb]; exact hrun⟩
  simp only [wgetRows, hword, hbase, join, hf, Option.isSome_none, Bool.false_eq_true, if_false, hd, List.append_nil]

example : ∃ acts, wgetRows (fun _ => some [[1, 2], [3]]) ['d'] ["wget ".toList ++ ("http://h".toList ++ '/' :: "x.nc".toList) ++ ['\n']] (fun _ => none) = (acts, none) ∧
    run (fun _ => none) acts = fun q => if q = ['d'] ++ '/' :: "x.nc".toList then some [1, 2, 3] else none :=
  C128_names _ ['d'] "http://h".toList "x.nc".toList "wget ".toList ['\n'] (by decide +kernel) (by simp) (by decide +kernel) (by decide +kernel)
    (.inr ⟨"wget".toList, ' ', by decide +kernel, by decide +kernel⟩) [[1, 2], [3]] rfl _ rfl

/-- C128 (the part that holds): when the listed names are pairwise different and none exists yet, a complete run stores under every
name exactly what its URL holds.  Missing: names that several URLs share (`C128_violated_shared_name`). -/
theorem C128_contents_partial (web : Web) (dir : Str) (rows : List Str) (fs : FS) (acts : List Act) (h : wgetRows web dir rows fs = (acts, none))
    (hnew : ∀ row ∈ rows, ∀ p, target dir row = some p → fs p = none) (hdist : (rows.map (target dir)).Nodup) :
    ∀ row ∈ rows, ∃ u c, lastWord row = some u ∧ content web u = some c ∧ run fs acts (join dir (basename u)) = some c := by
  induction rows generalizing fs acts with
  | nil => simp
  | cons row rows ih =>
    obtain ⟨u, hu, hcase⟩ := wget_cons_ok h
    rw [List.map_cons, List.nodup_cons] at hdist
    have hnone := hnew row List.mem_cons_self (join dir (basename u)) (by simp [target, hu])
    rcases hcase with ⟨hs, hrest⟩ | ⟨hs, a, b, c, rfl, hcont, hd, hrun, hrest⟩
    · rw [hnone] at hs; simp at hs
    · intro r hr
      rcases List.mem_cons.1 hr with rfl | hr
      · refine ⟨u, c, hu, hcont, ?_⟩
        have h1 : run fs a (join dir (basename u)) = some c := by rw [hrun]; simp
        have := C79_existing_untouched web dir rows (run fs a) b.length _ c h1
        rw [hrest, List.take_length] at this
        rw [run_append, this]
      · obtain ⟨u', c', h1, h2, h3⟩ := ih (run fs a) b hrest (by
          intro r' hr' p hp
          rw [hrun]
          have : p ≠ join dir (basename u) := by
            rintro rfl
            exact hdist.1 (List.mem_map.2 ⟨r', hr', by rw [hp]; simp [target, hu]⟩)
          simp only [if_neg this]
          exact hnew r' (List.mem_cons_of_mem _ hr') p hp) hdist.2 r hr
        exact ⟨u', c', h1, h2, by rwa [run_append]⟩

/-- C128 is violated: of two URLs with the same last component only the first is stored, without any message of failure. -/
theorem C128_violated_shared_name (web : Web) (dir row row' u u' : Str) (hu : lastWord row = some u) (hu' : lastWord row' = some u') (hb : basename u = basename u')
    (hne : basename u ≠ []) (c : List UInt8) (hc : content web u = some c) (fs : FS) (habs : fs (join dir (basename u)) = none) :
    ∃ acts, wgetRows web dir [row, row'] fs = (acts, none) ∧ run fs acts (join dir (basename u')) = some c := by
  cases hw : web u with
  | none => simp [content, hw] at hc
  | some blocks =>
    have hd : download web u (join dir (basename u)) (basename u) = (.request u :: .create (join dir (basename u)) :: blocks.map (Act.append (join dir (basename u))), none) := by
      simp [download, hw, hne]
    obtain ⟨c', hc', _, hrun⟩ := download_run hd fs
    rw [hc] at hc'
    cases hc'
    refine ⟨.request u :: .create (join dir (basename u)) :: blocks.map (Act.append (join dir (basename u))), ?_, ?_⟩
    · simp only [wgetRows, hu, habs, Option.isSome_none, Bool.false_eq_true, if_false, hd, hu', ← hb]
      rw [hrun]
      simp
    · rw [← hb, hrun]; simp

example : ∃ acts, wgetRows (fun u => if u = "http://h/2013/x.nc".toList then some [[1]] else some [[2]]) ['d'] ["wget http://h/2013/x.nc".toList, "wget http://h/2014/x.nc".toList]
    (fun _ => none) = (acts, none) ∧ run (fun _ => none) acts "d/x.nc".toList = some [1] :=
  C128_violated_shared_name _ _ _ _ "http://h/2013/x.nc".toList "http://h/2014/x.nc".toList (by decide +kernel) (by decide +kernel) (by decide +kernel) (by decide +kernel) [1]
    (by simp [content]) _ rfl

end SST.DataIO
