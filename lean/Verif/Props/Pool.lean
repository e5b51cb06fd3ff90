import Verif.Spec.Pool
import Verif.Props.FullProcess

/-! # Properties C195-C196: the procedure with a pool of worker processes

Specification: `Spec/Pool.lean`. -/

namespace SST.Props.Pool
open SST SST.Field SST.Spec SST.Spatial

section
variable {α ρ : Type} {w : ℕ} {helper : α → Except PyErr ρ} {args : List α}

/-- Invariant of the pool. -/
structure Inv (helper : α → Except PyErr ρ) (args : List α) (s : PoolState ρ) : Prop where
  perm : (s.todo ++ s.busy ++ s.unsorted.map Prod.fst ++ List.range s.index).Perm (List.range args.length)
  val : ∀ p ∈ s.unsorted, p.2 = taskResult helper args p.1
  fresh : ∀ p ∈ s.unsorted, p.1 ≠ s.index
  seq : s.got.map Except.ok ++ s.raised.toList.map Except.error ++ s.items = (List.range s.index).map (taskResult helper args)

theorem inv_init : Inv helper args (poolInit ρ args.length) := by
  refine ⟨?_, ?_, ?_, ?_⟩ <;> simp [poolInit]

/-- Draining establishes that the next result is not waiting. -/
theorem drain_inv (fuel : ℕ) : ∀ s : PoolState ρ, s.unsorted.length ≤ fuel →
    (s.todo ++ s.busy ++ s.unsorted.map Prod.fst ++ List.range s.index).Perm (List.range args.length) →
    (∀ p ∈ s.unsorted, p.2 = taskResult helper args p.1) →
    s.got.map Except.ok ++ s.raised.toList.map Except.error ++ s.items = (List.range s.index).map (taskResult helper args) →
    Inv helper args (drain fuel s) ∧ (drain fuel s).todo = s.todo ∧ (drain fuel s).busy = s.busy ∧
      (drain fuel s).unsorted.length + (drain fuel s).items.length = s.unsorted.length + s.items.length := by
  induction fuel with
  | zero =>
    intro s hl hp hv hs
    have hu : s.unsorted = [] := List.length_eq_zero_iff.1 (by omega)
    exact ⟨⟨hp, hv, by rw [show (drain 0 s) = s from rfl, hu]; simp, hs⟩, rfl, rfl, rfl⟩
  | succ k ih =>
    intro s hl hp hv hs
    unfold drain
    cases hf : s.unsorted.find? fun p => p.1 == s.index with
    | none =>
      refine ⟨⟨hp, hv, ?_, hs⟩, rfl, rfl, rfl⟩
      intro p hm he
      have := List.find?_eq_none.1 hf p hm
      simp [he] at this
    | some p =>
      simp only
      have hm : p ∈ s.unsorted := List.mem_of_find?_eq_some hf
      have he : p.1 = s.index := by simpa using List.find?_some hf
      obtain ⟨a, l₁, l₂, h1, h2, h3, h4⟩ := List.exists_of_eraseP (p := fun q : ℕ × Except PyErr ρ => q.1 == s.index) hm (by simpa using he)
      have ha : a.1 = s.index := by simpa using h2
      have hlen : s.unsorted.length = l₁.length + l₂.length + 1 := by rw [h3]; simp; omega
      obtain ⟨i1, i2, i3, i4⟩ := ih { s with index := s.index + 1, unsorted := s.unsorted.eraseP fun q => q.1 == s.index, items := s.items ++ [p.2] }
        (by simp only [h4, List.length_append]; omega)
        (by
          simp only [h4]
          refine List.Perm.trans ?_ hp
          rw [h3, List.range_succ]
          simp only [List.map_append, List.map_cons, ha, ← List.append_assoc]
          rw [List.perm_iff_count]
          intro x
          simp only [List.count_append, List.count_cons, List.count_nil]
          omega)
        (by
          intro q hq
          simp only [h4] at hq
          refine hv q ?_
          rw [h3]
          rcases List.mem_append.1 hq with h | h
          · exact List.mem_append_left _ h
          · exact List.mem_append_right _ (List.mem_cons_of_mem _ h))
        (by
          simp only
          rw [← List.append_assoc, hs, List.range_succ, List.map_append, hv p hm, he]
          rfl)
      refine ⟨i1, i2, i3, ?_⟩
      rw [i4]
      simp only [h4, List.length_append, List.length_cons, List.length_nil]
      omega

theorem step_inv {s t : PoolState ρ} (h : Inv helper args s) (hst : PoolStep w helper args s t) : Inv helper args t ∧
    3 * t.todo.length + 2 * t.busy.length + t.unsorted.length + t.items.length + 1 = 3 * s.todo.length + 2 * s.busy.length + s.unsorted.length + s.items.length := by
  cases hst with
  | @take i rest ht hw =>
    refine ⟨⟨?_, h.val, h.fresh, h.seq⟩, ?_⟩
    · refine List.Perm.trans ?_ h.perm
      rw [ht, List.perm_iff_count]
      intro x
      simp only [List.count_append, List.count_cons]
      omega
    · rw [ht]
      simp only [List.length_cons]
      omega
  | @done i hi =>
    have hb : (s.busy.erase i).length + 1 = s.busy.length := by
      rw [List.length_erase_of_mem hi]
      have := List.length_pos_of_mem hi
      omega
    have hperm : s.busy.Perm (i :: s.busy.erase i) := List.perm_cons_erase hi
    unfold setResult
    by_cases he : s.index = i
    · rw [if_pos he]
      obtain ⟨i1, i2, i3, i4⟩ := drain_inv (helper := helper) (args := args) s.unsorted.length
        { s with busy := s.busy.erase i, index := s.index + 1, items := s.items ++ [taskResult helper args i] } le_rfl
        (by
          refine List.Perm.trans ?_ h.perm
          simp only
          rw [List.range_succ, List.perm_iff_count]
          intro x
          have := (List.perm_iff_count.1 hperm) x
          simp only [List.count_append, List.count_cons, List.count_nil] at this ⊢
          rw [he]
          omega)
        h.val
        (by
          simp only
          rw [← List.append_assoc, h.seq, List.range_succ, List.map_append, ← he]
          rfl)
      refine ⟨i1, ?_⟩
      simp only at i2 i3 i4 ⊢
      rw [i2, i3]
      simp only [List.length_append, List.length_cons, List.length_nil] at i4
      omega
    · rw [if_neg he]
      refine ⟨⟨?_, ?_, ?_, h.seq⟩, ?_⟩
      · refine List.Perm.trans ?_ h.perm
        simp only
        rw [List.perm_iff_count]
        intro x
        have := (List.perm_iff_count.1 hperm) x
        simp only [List.map_append, List.map_cons, List.map_nil, List.count_append, List.count_cons, List.count_nil] at this ⊢
        omega
      · intro p hp
        rcases List.mem_append.1 hp with h' | h'
        · exact h.val p h'
        · rw [List.mem_singleton.1 h']
      · intro p hp
        rcases List.mem_append.1 hp with h' | h'
        · exact h.fresh p h'
        · rw [List.mem_singleton.1 h']
          exact fun e => he e.symm
      · simp only [List.length_append, List.length_cons, List.length_nil]
        omega
  | @next r rest hi hr =>
    refine ⟨⟨h.perm, h.val, h.fresh, ?_⟩, ?_⟩
    · simp only
      rw [← h.seq, hi, hr]
      simp
    · rw [hi]; simp only [List.length_cons]; omega
  | @raise e rest hi hr =>
    refine ⟨⟨h.perm, h.val, h.fresh, ?_⟩, ?_⟩
    · simp only
      rw [← h.seq, hi, hr]
      simp
    · rw [hi]; simp only [List.length_cons]; omega

theorem run_inv {k : ℕ} {s t : PoolState ρ} (hs : Inv helper args s) (h : PoolRun w helper args k s t) : Inv helper args t ∧
    3 * t.todo.length + 2 * t.busy.length + t.unsorted.length + t.items.length + k = 3 * s.todo.length + 2 * s.busy.length + s.unsorted.length + s.items.length := by
  induction h with
  | refl => exact ⟨hs, rfl⟩
  | step h h' ih =>
    obtain ⟨i1, i2⟩ := ih hs
    obtain ⟨j1, j2⟩ := step_inv i1 h'
    exact ⟨j1, by omega⟩

theorem mapM_ok {l : List α} {rs : List ρ} (h : l.map helper = rs.map Except.ok) : l.mapM helper = .ok rs := by
  induction l generalizing rs with
  | nil => cases rs with
    | nil => rfl
    | cons => simp at h
  | cons a l ih =>
    cases rs with
    | nil => simp at h
    | cons r rs =>
      simp only [List.map_cons, List.cons.injEq] at h
      rw [List.mapM_cons, h.1, ih h.2]
      rfl

theorem mapM_err {l : List α} {rs : List ρ} {e : PyErr} {rest : List (Except PyErr ρ)} (h : l.map helper = rs.map Except.ok ++ .error e :: rest) :
    l.mapM helper = .error e := by
  induction l generalizing rs with
  | nil => simp at h
  | cons a l ih =>
    cases rs with
    | nil =>
      simp only [List.map_nil, List.nil_append, List.map_cons, List.cons.injEq] at h
      rw [List.mapM_cons, h.1]
      rfl
    | cons r rs =>
      simp only [List.map_cons, List.cons_append, List.cons.injEq] at h
      rw [List.mapM_cons, h.1, ih h.2]
      rfl

theorem task_map (k : ℕ) (hk : k ≤ args.length) : (List.range k).map (taskResult helper args) = (args.take k).map helper := by
  refine List.ext_getElem (by simp [hk]) fun i h1 h2 => ?_
  have hi : i < args.length := by simp at h1; omega
  simp [taskResult, List.getElem?_eq_getElem hi]

theorem index_le {s : PoolState ρ} (h : Inv helper args s) : s.index ≤ args.length := by
  have := h.perm.length_eq
  simp at this
  omega

/-- C195: whatever the number of worker processes and the order of events, when the main process has left the loop over the results it has
exactly the results of the loop over the arguments one after the other, in the same order; if one of them raises, it has the exception which
that loop raises. -/
theorem C195_same_as_serial (w : ℕ) (helper : α → Except PyErr ρ) (args : List α) (k : ℕ) (s : PoolState ρ) (h : PoolRun w helper args k (poolInit ρ args.length) s)
    (hf : s.Final args.length) : s.outcome = args.mapM helper := by
  have hi := (run_inv inv_init h).1
  have hle := index_le hi
  have hseq := hi.seq
  rw [task_map _ hle] at hseq
  unfold PoolState.outcome
  cases hr : s.raised with
  | some e =>
    simp only
    rw [hr] at hseq
    symm
    refine mapM_err (rs := s.got) (rest := s.items ++ (args.drop s.index).map helper) ?_
    conv_lhs => rw [← List.take_append_drop s.index args, List.map_append, ← hseq]
    simp
  | none =>
    simp only
    rw [hr] at hseq
    rcases hf with hf | hf
    · exact absurd hr hf
    symm
    refine mapM_ok ?_
    have hl := congrArg List.length hseq
    simp only [Option.toList_none, List.map_nil, List.append_nil, List.length_append, List.length_map, List.length_take] at hl
    have h1 : s.index = args.length := by omega
    have h2 : s.items = [] := List.length_eq_zero_iff.1 (by omega)
    rw [h1, List.take_length] at hseq
    rw [← hseq, h2]
    simp

/-- C195: the pool never blocks: with at least one worker, as long as the main process waits something can happen. -/
theorem C195_no_deadlock (w : ℕ) (hw : 1 ≤ w) (helper : α → Except PyErr ρ) (args : List α) (k : ℕ) (s : PoolState ρ)
    (h : PoolRun w helper args k (poolInit ρ args.length) s) (hf : ¬ s.Final args.length) : ∃ t, PoolStep w helper args s t := by
  have hi := (run_inv inv_init h).1
  have hle := index_le hi
  unfold PoolState.Final at hf
  push Not at hf
  obtain ⟨hr, hg⟩ := hf
  cases hit : s.items with
  | cons o rest =>
    cases o with
    | ok r => exact ⟨_, .next hit hr⟩
    | error e => exact ⟨_, .raise hit hr⟩
  | nil =>
    cases hb : s.busy with
    | cons i rest => exact ⟨_, .done (i := i) (by rw [hb]; exact List.mem_cons_self)⟩
    | nil =>
      cases ht : s.todo with
      | cons i rest => exact ⟨_, .take ht (by rw [hb]; exact hw)⟩
      | nil =>
        exfalso
        have hl := congrArg List.length hi.seq
        rw [hr, hit] at hl
        simp at hl
        have hlt : s.index < args.length := by omega
        have hm := hi.perm.mem_iff.2 (List.mem_range.2 hlt)
        rw [ht, hb] at hm
        simp at hm
        obtain ⟨o, ho⟩ := hm
        exact hi.fresh _ ho rfl

/-- C195: every run ends: no run has more than three events per argument. -/
theorem C195_terminates (w : ℕ) (helper : α → Except PyErr ρ) (args : List α) (k : ℕ) (s : PoolState ρ) (h : PoolRun w helper args k (poolInit ρ args.length) s) :
    k ≤ 3 * args.length := by
  have := (run_inv inv_init h).2
  simp [poolInit] at this
  omega

/-- From every reachable state the run can be completed. -/
theorem completes (hw : 1 ≤ w) (m : ℕ) : ∀ (k : ℕ) (s : PoolState ρ), 3 * args.length ≤ k + m → PoolRun w helper args k (poolInit ρ args.length) s →
    ∃ k' t, PoolRun w helper args k' (poolInit ρ args.length) t ∧ t.Final args.length := by
  induction m with
  | zero =>
    intro k s hk h
    by_cases hf : s.Final args.length
    · exact ⟨k, s, h, hf⟩
    · obtain ⟨t, ht⟩ := C195_no_deadlock w hw helper args k s h hf
      have := C195_terminates w helper args _ t (.step h ht)
      omega
  | succ m ih =>
    intro k s hk h
    by_cases hf : s.Final args.length
    · exact ⟨k, s, h, hf⟩
    · obtain ⟨t, ht⟩ := C195_no_deadlock w hw helper args k s h hf
      exact ih (k + 1) t (by omega) (.step h ht)

end

/-- Two workers, three tasks, the second of which raises: the third is finished first, and the exception is raised when the second result is
read. -/
example : ∃ k s, PoolRun 2 (fun n : ℕ => if n = 1 then .error .valueError else .ok (n * 10)) [0, 1, 2] k (poolInit ℕ 3) s ∧ s.Final 3 ∧ s.raised = some .valueError ∧ s.got = [0] := by
  refine ⟨8, _, .step (.step (.step (.step (.step (.step (.step (.step (.refl _) (.take rfl (by decide))) (.take rfl (by decide))) (.done (i := 0) ?_)) (.take rfl (by decide))) (.done (i := 2) ?_)) (.done (i := 1) ?_)) (.next rfl rfl)) (.raise rfl rfl), ?_, rfl, rfl⟩
  · simp [poolInit]
  · simp [poolInit, setResult, drain]
  · simp [poolInit, setResult, drain]
  · left; simp

section
variable {ι : Type}

/-! ## C196 -/

theorem fillTable_eq [DecidableEq ι] (ids : List ι) (hn : ids.Nodup) (got : List (ι × List PredRow)) (hg : got.map Prod.fst = ids) :
    fillTable ids got = got.map fun r => (r.1, meanRows r.2) := by
  unfold fillTable
  subst hg
  have key : ∀ (rest pre : List (ι × List PredRow)), (pre ++ rest).map Prod.fst |>.Nodup →
      rest.foldl (fun t r => locSet t r.1 (meanRows r.2)) (pre.map (fun r => (r.1, meanRows r.2)) ++ rest.map fun r => (r.1, (⟨none, none, []⟩ : PredRow))) =
        (pre ++ rest).map fun r => (r.1, meanRows r.2) := by
    intro rest
    induction rest with
    | nil => intro pre _; simp
    | cons a rest ih =>
      intro pre hnd
      rw [List.foldl_cons]
      have hset : locSet (pre.map (fun r => (r.1, meanRows r.2)) ++ (a :: rest).map fun r => (r.1, (⟨none, none, []⟩ : PredRow))) a.1 (meanRows a.2) =
          (pre ++ [a]).map (fun r => (r.1, meanRows r.2)) ++ rest.map fun r => (r.1, (⟨none, none, []⟩ : PredRow)) := by
        unfold locSet
        rw [List.map_append, List.nodup_append] at hnd
        obtain ⟨-, h2, h3⟩ := hnd
        rw [List.map_cons, List.nodup_cons] at h2
        simp only [List.map_append, List.map_cons, List.map_nil, if_true, List.append_assoc, List.cons_append, List.nil_append]
        congr 1
        · rw [List.map_map]
          refine List.map_congr_left fun r hr => ?_
          have : r.1 ≠ a.1 := h3 r.1 (List.mem_map_of_mem hr) a.1 (by simp)
          simp [this]
        · congr 1
          rw [List.map_map]
          refine List.map_congr_left fun r hr => ?_
          have : r.1 ≠ a.1 := fun e => h2.1 (e ▸ List.mem_map_of_mem hr)
          simp [this]
      rw [hset, ih (pre ++ [a]) (by simpa using hnd)]
      simp
  have := key got [] (by simpa using hn)
  simp only [List.map_nil, List.nil_append] at this
  rw [List.map_map]
  exact this

theorem mapM_map {α β γ : Type} (h : α → Except PyErr β) (g : β → γ) (l : List α) : (l.mapM fun a => (h a).map g) = (l.mapM h).map (List.map g) := by
  induction l with
  | nil => rfl
  | cons a l ih =>
    rw [List.mapM_cons, List.mapM_cons, ih]
    cases h a with
    | error e => rfl
    | ok b =>
      cases l.mapM h with
      | error e => rfl
      | ok r => rfl

theorem mapM_fst {β : Type} (h : ι → Except PyErr β) (l : List ι) {got : List (ι × β)} (hm : (l.mapM fun a => (h a).map fun b => (a, b)) = .ok got) :
    got.map Prod.fst = l := by
  induction l generalizing got with
  | nil => cases hm; rfl
  | cons a l ih =>
    rw [List.mapM_cons] at hm
    cases ha : h a with
    | error e => rw [ha] at hm; cases hm
    | ok b =>
      rw [ha] at hm
      cases hl : l.mapM fun a => (h a).map fun b => (a, b) with
      | error e => rw [hl] at hm; cases hm
      | ok r =>
        rw [hl] at hm
        cases hm
        simp [ih hl]

variable {κ : Type} [LinearOrder ι]

/-- C196: the table of predictions filled by a pool is the table of the loop over the combiners, and nothing else is possible. -/
theorem C196_round (w : ℕ) (hw : 1 ≤ w) (sort : SortValues ι) (mode : String) (ndownsel : ℤ) (pairs : List (κ × κ)) (data : κ → ι → CloudCase)
    (f : Frame ι String ℝ) (ids : List ι) (hn : ids.Nodup) (r : Except PyErr (List (ι × PredRow))) :
    PoolGives w (multipoolHelper sort mode ndownsel pairs data f) ids r ↔ r = predictAll (meanPredict sort mode ndownsel pairs data) f ids := by
  have key : (ids.mapM (multipoolHelper sort mode ndownsel pairs data f)).map (fillTable ids) = predictAll (meanPredict sort mode ndownsel pairs data) f ids := by
    have e : predictAll (meanPredict sort mode ndownsel pairs data) f ids =
        (ids.mapM (multipoolHelper sort mode ndownsel pairs data f)).map (List.map fun r => (r.1, meanRows r.2)) := by
      rw [← mapM_map]
      unfold predictAll
      congr 1
      funext l
      unfold meanPredict multipoolHelper
      cases pairs.mapM fun p => (predictedPosition sort (tablePts f) false l mode ndownsel (data p.1 l) (data p.2 l)).map fun r => storeRow r.1 <;> rfl
    rw [e]
    cases hm : ids.mapM (multipoolHelper sort mode ndownsel pairs data f) with
    | error e => rfl
    | ok got =>
      simp only [Except.map]
      rw [fillTable_eq ids hn got (mapM_fst _ ids hm)]
  constructor
  · rintro ⟨k, s, h, hf, rfl⟩
    rw [C195_same_as_serial w _ ids k s h hf, key]
  · rintro rfl
    obtain ⟨k, s, h, hf⟩ := completes hw (3 * ids.length) 0 _ (by omega) (PoolRun.refl (w := w) (helper := multipoolHelper sort mode ndownsel pairs data f) (args := ids) (poolInit _ ids.length))
    exact ⟨k, s, h, hf, by rw [C195_same_as_serial w _ ids k s h hf, key]⟩

theorem procStep_eq (lsa : LSA) (nan : ℝ) (predict : Predictor ι) (inv : ι → String) (f : Frame ι String ℝ) (s : ProcState ι) :
    procStep lsa nan predict inv f s = predictAll predict s.layout f.index >>= restOfRound lsa nan inv f s := by
  unfold procStep roundRemap restOfRound
  cases predictAll predict s.layout f.index <;> rfl

/-- C196: the procedure with a pool of any number of workers, whatever their order, gives exactly the result (or the exception) of the
procedure that predicts one combiner after the other. -/
theorem C196_procedure (w : ℕ) (hw : 1 ≤ w) (lsa : LSA) (nan : ℝ) (sort : SortValues ι) (mode : String) (ndownsel : ℤ) (pairs : List (κ × κ))
    (data : κ → ι → CloudCase) (inv : ι → String) (f : Frame ι String ℝ) (hn : f.index.Nodup) (r : Except PyErr (ProcState ι)) :
    MultiRun w lsa nan (multipoolHelper sort mode ndownsel pairs data) inv f (procInit f) r ↔
      procLoop lsa nan (meanPredict sort mode ndownsel pairs data) inv f 10 (procInit f) = r.map some := by
  have hround : ∀ (s : ProcState ι) (p : Except PyErr (List (ι × PredRow))), PoolGives w (multipoolHelper sort mode ndownsel pairs data s.layout) f.index p →
      (p >>= restOfRound lsa nan inv f s) = procStep lsa nan (meanPredict sort mode ndownsel pairs data) inv f s := by
    intro s p hp
    rw [(C196_round w hw sort mode ndownsel pairs data s.layout f.index hn p).1 hp, procStep_eq]
  have hgives : ∀ s : ProcState ι, ∃ p, PoolGives w (multipoolHelper sort mode ndownsel pairs data s.layout) f.index p :=
    fun s => ⟨_, (C196_round w hw sort mode ndownsel pairs data s.layout f.index hn _).2 rfl⟩
  constructor
  · intro h
    have gen : ∀ s, MultiRun w lsa nan (multipoolHelper sort mode ndownsel pairs data) inv f s r →
        ∃ n, procLoop lsa nan (meanPredict sort mode ndownsel pairs data) inv f n s = r.map some := by
      clear h
      intro s h
      induction h with
      | @fail s p e hp hr =>
        refine ⟨1, ?_⟩
        rw [hround s p hp] at hr
        unfold procLoop
        rw [hr]
        rfl
      | @stop s s' p hp hr =>
        refine ⟨1, ?_⟩
        rw [hround s p hp] at hr
        unfold procLoop
        rw [hr]
        rfl
      | @again s s' p r hp hr hnx ih =>
        obtain ⟨n, hn'⟩ := ih
        refine ⟨n + 1, ?_⟩
        rw [hround s p hp] at hr
        unfold procLoop
        rw [hr]
        exact hn'
    obtain ⟨n, hn'⟩ := gen _ h
    have h10 : procLoop lsa nan (meanPredict sort mode ndownsel pairs data) inv f 10 (procInit f) ≠ .ok none := (FullProcess.C170_halts lsa nan _ inv f).2.1
    have hnn : procLoop lsa nan (meanPredict sort mode ndownsel pairs data) inv f n (procInit f) ≠ .ok none := by
      rw [hn']; cases r <;> simp [Except.map]
    rw [← procLoop_mono 10 (procInit f) n h10, Nat.add_comm, procLoop_mono n (procInit f) 10 hnn, hn']
  · have key : ∀ (n : ℕ) (s : ProcState ι), procLoop lsa nan (meanPredict sort mode ndownsel pairs data) inv f n s = r.map some →
        MultiRun w lsa nan (multipoolHelper sort mode ndownsel pairs data) inv f s r := by
      intro n
      induction n with
      | zero =>
        intro s h
        cases r <;> simp [procLoop, Except.map] at h
      | succ n ih =>
        intro s h
        obtain ⟨p, hp⟩ := hgives s
        have hr := hround s p hp
        unfold procLoop at h
        cases hst : procStep lsa nan (meanPredict sort mode ndownsel pairs data) inv f s with
        | error e =>
          rw [hst] at h hr
          cases r with
          | error e' =>
            have : e = e' := by simpa [bind, Except.bind, Except.map] using h
            subst this
            exact .fail hp hr
          | ok st => simp [bind, Except.bind, Except.map] at h
        | ok q =>
          obtain ⟨s', b⟩ := q
          rw [hst] at h hr
          cases b with
          | true => exact .again hp hr (ih s' h)
          | false =>
            cases r with
            | error e' => simp [bind, Except.bind, Except.map] at h
            | ok st =>
              have : s' = st := by simpa [bind, Except.bind, Except.map] using h
              subst this
              exact .stop hp hr
    exact key 10 _

/-- C196: so it always has exactly one possible outcome. -/
theorem C196_deterministic (w : ℕ) (hw : 1 ≤ w) (lsa : LSA) (nan : ℝ) (sort : SortValues ι) (mode : String) (ndownsel : ℤ) (pairs : List (κ × κ))
    (data : κ → ι → CloudCase) (inv : ι → String) (f : Frame ι String ℝ) (hn : f.index.Nodup) :
    ∃! r, MultiRun w lsa nan (multipoolHelper sort mode ndownsel pairs data) inv f (procInit f) r := by
  have h10 : procLoop lsa nan (meanPredict sort mode ndownsel pairs data) inv f 10 (procInit f) ≠ .ok none := (FullProcess.C170_halts lsa nan _ inv f).2.1
  cases hl : procLoop lsa nan (meanPredict sort mode ndownsel pairs data) inv f 10 (procInit f) with
  | error e =>
    refine ⟨.error e, (C196_procedure w hw lsa nan sort mode ndownsel pairs data inv f hn _).2 (by rw [hl]; rfl), ?_⟩
    intro r hr
    have := (C196_procedure w hw lsa nan sort mode ndownsel pairs data inv f hn r).1 hr
    rw [hl] at this
    cases r with
    | error e' => simpa [Except.map] using this.symm
    | ok s => simp [Except.map] at this
  | ok o =>
    cases o with
    | none => exact absurd hl h10
    | some st =>
      refine ⟨.ok st, (C196_procedure w hw lsa nan sort mode ndownsel pairs data inv f hn _).2 (by rw [hl]; rfl), ?_⟩
      intro r hr
      have := (C196_procedure w hw lsa nan sort mode ndownsel pairs data inv f hn r).1 hr
      rw [hl] at this
      cases r with
      | error e' => simp [Except.map] at this
      | ok s => simpa [Except.map] using this.symm

/-- Two combiners, four workers. -/
example : (1 ≤ 4) ∧ (⟨["E", "N"], [("c-1-1", fun _ => 0), ("c-1-2", fun c => if c = "E" then 10 else 0)]⟩ : Frame String String ℝ).index.Nodup := by
  refine ⟨by norm_num, ?_⟩
  simp [Frame.index]

end

end SST.Props.Pool
