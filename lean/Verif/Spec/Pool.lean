import Verif.Model.Pool

/-! # Specification: runs of the pool and of the whole multi-process procedure -/

namespace SST.Spec
open SST SST.Field

variable {ι α ρ : Type}

/-- `k` events, in any order the pool allows, lead from one state to another. -/
inductive PoolRun (w : ℕ) (helper : α → Except PyErr ρ) (args : List α) : ℕ → PoolState ρ → PoolState ρ → Prop
  | refl (s : PoolState ρ) : PoolRun w helper args 0 s s
  | step {k : ℕ} {s t u : PoolState ρ} (h : PoolRun w helper args k s t) (h' : PoolStep w helper args t u) : PoolRun w helper args (k + 1) s u

/-- A possible result of the predictions of one round: some run of the pool ends with it. -/
def PoolGives [DecidableEq ι] (w : ℕ) (helper : ι → Except PyErr (ι × List PredRow)) (ids : List ι) (r : Except PyErr (List (ι × PredRow))) : Prop :=
  ∃ k s, PoolRun w helper ids k (poolInit _ ids.length) s ∧ s.Final ids.length ∧ r = s.outcome.map (fillTable ids)

/-- A possible result of the whole procedure: round after round, each with some run of its pool. -/
inductive MultiRun [LinearOrder ι] (w : ℕ) (lsa : LSA) (nan : ℝ) (helper : Frame ι String ℝ → ι → Except PyErr (ι × List PredRow)) (inv : ι → String)
    (f : Frame ι String ℝ) : ProcState ι → Except PyErr (ProcState ι) → Prop
  | fail {s : ProcState ι} {p : Except PyErr (List (ι × PredRow))} {e : PyErr} (hp : PoolGives w (helper s.layout) f.index p)
      (hr : (p >>= restOfRound lsa nan inv f s) = .error e) : MultiRun w lsa nan helper inv f s (.error e)
  | stop {s s' : ProcState ι} {p : Except PyErr (List (ι × PredRow))} (hp : PoolGives w (helper s.layout) f.index p)
      (hr : (p >>= restOfRound lsa nan inv f s) = .ok (s', false)) : MultiRun w lsa nan helper inv f s (.ok s')
  | again {s s' : ProcState ι} {p : Except PyErr (List (ι × PredRow))} {r : Except PyErr (ProcState ι)} (hp : PoolGives w (helper s.layout) f.index p)
      (hr : (p >>= restOfRound lsa nan inv f s) = .ok (s', true)) (hn : MultiRun w lsa nan helper inv f s' r) : MultiRun w lsa nan helper inv f s r

end SST.Spec
