import Verif.Model.FullProcess

/-!
# Model of `demos/field_demo_full_process_multithread.py`

The predictions of the combiners are computed by a pool of worker processes (`multiprocessing.Pool().imap` with `chunksize=1`); the rest is
the same text as `field_demo_full_process.py`.  The pool is a transition system: any worker may take the next task at any time, tasks may be
finished in any order, and the main process waits for the results in the order of the tasks (`IMapIterator` of the Python library).  The
arguments and results are copies (pickled), so that the workers share nothing.  A worker process that dies is not modelled.
-/

namespace SST.Field
open SST SST.Spatial

variable {ι κ α ρ : Type}

/-! ## `pool.imap` -/

/-- The pool and its iterator.  `todo`, `busy`: numbers of the tasks waiting and being worked on; `index`, `unsorted`, `items`: the
attributes of `IMapIterator` (number of results put in order, results that came too early, results ready to be read); `got`: results read by
the main process; `raised`: the exception that reading a result raised. -/
structure PoolState (ρ : Type) where
  todo : List ℕ
  busy : List ℕ
  index : ℕ
  unsorted : List (ℕ × Except PyErr ρ)
  items : List (Except PyErr ρ)
  got : List ρ
  raised : Option PyErr

/-- After `pool.imap(helper, args)`, field_demo_full_process_multithread.py:119-121. -/
def poolInit (ρ : Type) (n : ℕ) : PoolState ρ := ⟨List.range n, [], 0, [], [], [], none⟩

/-- The loop of `IMapIterator._set`: `while self._index in self._unsorted`, at most `fuel` times (the number of entries is enough). -/
def drain (fuel : ℕ) (s : PoolState ρ) : PoolState ρ :=
  match fuel with
  | 0 => s
  | k + 1 =>
    match s.unsorted.find? fun p => p.1 == s.index with
    | none => s
    | some p => drain k { s with index := s.index + 1, unsorted := s.unsorted.eraseP fun q => q.1 == s.index, items := s.items ++ [p.2] }

/-- `IMapIterator._set(i, obj)`. -/
def setResult (s : PoolState ρ) (i : ℕ) (obj : Except PyErr ρ) : PoolState ρ :=
  if s.index = i then drain s.unsorted.length { s with index := s.index + 1, items := s.items ++ [obj] }
  else { s with unsorted := s.unsorted ++ [(i, obj)] }

/-- What a worker computes for task `i`: the helper applied to the argument, or the exception it raised. -/
def taskResult (helper : α → Except PyErr ρ) (args : List α) (i : ℕ) : Except PyErr ρ :=
  match args[i]? with
  | some a => helper a
  | none => .error .indexError

/-- What can happen next, with `w` worker processes. -/
inductive PoolStep (w : ℕ) (helper : α → Except PyErr ρ) (args : List α) : PoolState ρ → PoolState ρ → Prop
  /-- an idle worker takes the first waiting task -/
  | take {s : PoolState ρ} {i : ℕ} {rest : List ℕ} (ht : s.todo = i :: rest) (hw : s.busy.length < w) :
      PoolStep w helper args s { s with todo := rest, busy := i :: s.busy }
  /-- a worker finishes its task -/
  | done {s : PoolState ρ} {i : ℕ} (hi : i ∈ s.busy) :
      PoolStep w helper args s (setResult { s with busy := s.busy.erase i } i (taskResult helper args i))
  /-- the main process reads a result -/
  | next {s : PoolState ρ} {r : ρ} {rest : List (Except PyErr ρ)} (hi : s.items = .ok r :: rest) (hr : s.raised = none) :
      PoolStep w helper args s { s with items := rest, got := s.got ++ [r] }
  /-- the main process reads an exception, which is raised -/
  | raise {s : PoolState ρ} {e : PyErr} {rest : List (Except PyErr ρ)} (hi : s.items = .error e :: rest) (hr : s.raised = none) :
      PoolStep w helper args s { s with items := rest, raised := some e }

/-- The main process has left the loop over the results: all are read, or one was an exception. -/
def PoolState.Final (n : ℕ) (s : PoolState ρ) : Prop := s.raised ≠ none ∨ s.got.length = n

/-- What the main process has then. -/
def PoolState.outcome (s : PoolState ρ) : Except PyErr (List ρ) :=
  match s.raised with
  | some e => .error e
  | none => .ok s.got

/-! ## One round -/

/-- `multipool_helper`, field_demo_full_process_multithread.py:228-253: the label and the predictions from all pairs of cloud vectors. -/
noncomputable def multipoolHelper [DecidableEq ι] (sort : SortValues ι) (mode : String) (ndownsel : ℤ) (pairs : List (κ × κ))
    (data : κ → ι → CloudCase) (f : Frame ι String ℝ) (ref : ι) : Except PyErr (ι × List PredRow) :=
  (pairs.mapM fun p => (predictedPosition sort (tablePts f) false ref mode ndownsel (data p.1 ref) (data p.2 ref)).map
    fun r => storeRow r.1).map fun rows => (ref, rows)

/-- `mean_preds.loc[cmb_id] = row`. -/
def locSet [DecidableEq ι] (t : List (ι × PredRow)) (l : ι) (r : PredRow) : List (ι × PredRow) := t.map fun p => if p.1 = l then (p.1, r) else p

/-- `mean_preds` after the loop over the results, field_demo_full_process_multithread.py:107 and 119-124: every row starts as NaN. -/
noncomputable def fillTable [DecidableEq ι] (ids : List ι) (got : List (ι × List PredRow)) : List (ι × PredRow) :=
  got.foldl (fun t r => locSet t r.1 (meanRows r.2)) (ids.map fun l => (l, ⟨none, none, []⟩))

/-- The rest of a round, field_demo_full_process_multithread.py:136-181. -/
noncomputable def restOfRound [LinearOrder ι] (lsa : LSA) (nan : ℝ) (inv : ι → String) (f : Frame ι String ℝ) (s : ProcState ι)
    (preds : List (ι × PredRow)) : Except PyErr (ProcState ι × Bool) :=
  ((invIds inv f.index).mapM fun name => assignGroup lsa nan s.layout preds (refsub inv f.index name)).map List.flatten >>= fun r =>
  cascadeRemap s.remap r >>= fun new =>
  (remapPositions nan f new none).map fun upd => procUpdate s new upd

end SST.Field
