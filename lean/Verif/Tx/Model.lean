import Mathlib.Logic.Basic
import Mathlib.Data.List.Basic
import Verif.Res

/-!
# Transactions on persistent memory

The data structures change persistent memory inside `transaction::run(pop, …)` of libpmemobj-cpp (for
example PBPTree.hpp:1175-1219, PTable.hpp:475, BaseTrie.hpp:89-102).  The library itself is not part of the
repository; this file is a model of its documented behaviour, and belongs to the trusted base:

* `p<T>::get_rw()` and the assignment operators of `p` and `persistent_ptr` call `pmemobj_tx_add_range` for
  the object before it is modified: the old contents are in the persistent undo log when the call returns
  (`Step.snap`).
* Plain stores to persistent memory reach it at some time before the commit finishes, in any order
  (`Step.write`).  A crash may leave any contents in an address that has been written since the begin of the
  transaction.
* `make_persistent` reserves memory (`Step.alloc`), `delete_persistent` frees it at commit (`Step.free`).
* The commit flushes all modified ranges, and then makes allocations and frees permanent and drops the undo
  log in one step (the redo log of the allocator).
* When the pool is opened after a crash, the undo log of an uncommitted transaction is applied from the newest
  to the oldest entry.  The log is dropped afterwards, so that a second crash only makes this start again.

An address stands for any unit that is written at once; a range is a list of addresses.
-/

namespace Verif.Tx

variable {A X : Type} [DecidableEq A]

/-- A persistent memory: contents and allocation state of every address. -/
structure Mem (A X : Type) where
  val : A → X
  live : A → Bool

/-- The same contents at all allocated addresses. -/
def Mem.Same (m m' : Mem A X) : Prop :=
  (∀ a, m'.live a = m.live a) ∧ ∀ a, m.live a = true → m'.val a = m.val a

/-- One step of a transaction. -/
inductive Step (A X : Type) where
  /-- `get_rw()` / `add_range`: old contents to the undo log -/
  | snap (as : List A)
  /-- a store -/
  | write (a : A) (x : X)
  /-- `make_persistent`, with the contents that the constructor writes -/
  | alloc (as : List A) (x : A → X)
  /-- `delete_persistent` -/
  | free (as : List A)

/-- A running transaction: contents, undo log (newest entry first), addresses allocated and to be freed. -/
structure Run (A X : Type) where
  val : A → X
  log : List (A × X)
  news : List A
  frees : List A

/-- Point update. -/
def upd (f : A → X) (a : A) (x : X) : A → X := fun b => if b = a then x else f b

/-- The effect of one step. -/
def Step.run (t : Run A X) : Step A X → Run A X
  | .snap as => { t with log := as.map (fun a => (a, t.val a)) ++ t.log }
  | .write a x => { t with val := upd t.val a x }
  | .alloc as x => { t with val := fun a => if a ∈ as then x a else t.val a, news := as ++ t.news }
  | .free as => { t with frees := as ++ t.frees }

/-- A transaction on memory `m` after the given steps. -/
def exec (m : Mem A X) (ss : List (Step A X)) : Run A X := ss.foldl Step.run ⟨m.val, [], [], []⟩

/-- The memory after the commit. -/
def commit (m : Mem A X) (ss : List (Step A X)) : Mem A X :=
  let t := exec m ss
  ⟨t.val, fun a => (decide (a ∈ t.news) || m.live a) && !decide (a ∈ t.frees)⟩

/-- The addresses a step may write. -/
def Step.writes : Step A X → List A
  | .write a _ => [a]
  | .alloc as _ => as
  | _ => []

/-- The memory image after a crash that follows the steps `ss`: an address not written since the begin of
the transaction has its old contents, any other address may contain anything.  Reservations are forgotten. -/
def CrashImage (m : Mem A X) (ss : List (Step A X)) (img : A → X) : Prop :=
  ∀ a, (∀ s ∈ ss, a ∉ s.writes) → img a = m.val a

/-- Recovery: the undo log is applied from the newest to the oldest entry. -/
def undo (log : List (A × X)) (img : A → X) : A → X := log.foldl (fun f e => upd f e.1 e.2) img

/-- A recovery that is itself interrupted by a crash may leave anything in the addresses of the undo log. -/
def Interrupted (log : List (A × X)) (img img' : A → X) : Prop := ∀ a, (∀ x, (a, x) ∉ log) → img' a = img a

/-- A crash after the steps `ss` of a transaction, any number of interrupted recoveries, and one recovery that
finishes: the possible memories afterwards. -/
inductive Recovered (m : Mem A X) (ss : List (Step A X)) : (A → X) → Prop where
  | crash {img : A → X} (h : CrashImage m ss img) : Recovered m ss img
  | again {img img' : A → X} (h : Recovered m ss img) (hi : Interrupted (exec m ss).log img img') :
      Recovered m ss img'

/-- The memory after a crash inside the transaction (before the commit point) and recovery. -/
def AfterCrash (m : Mem A X) (ss : List (Step A X)) (m' : Mem A X) : Prop :=
  ∃ img, Recovered m ss img ∧ m' = ⟨undo (exec m ss).log img, m.live⟩

/-- A crash after the commit point: all stores have been flushed, the allocator may or may not have marked
the allocated and freed addresses. -/
def CommitImage (m : Mem A X) (ss : List (Step A X)) (img : Mem A X) : Prop :=
  img.val = (exec m ss).val ∧
    ∀ a, a ∉ (exec m ss).news → a ∉ (exec m ss).frees → img.live a = m.live a

/-- Recovery after the commit point: the redo log of the allocator is applied (again). -/
def redo (t : Run A X) (img : Mem A X) : Mem A X :=
  ⟨img.val, fun a => if a ∈ t.frees then false else if a ∈ t.news then true else img.live a⟩

/-- The memory after a crash behind the commit point, any number of interrupted recoveries (they also satisfy
`CommitImage`), and one recovery that finishes. -/
def AfterCommit (m : Mem A X) (ss : List (Step A X)) (m' : Mem A X) : Prop :=
  ∃ img, CommitImage m ss img ∧ m' = redo (exec m ss) img

/-- The rule for programs: a store goes to a snapshotted or newly allocated address, a snapshot to an
allocated one, an allocation returns unused memory.  `cov`: the addresses covered so far. -/
def Disciplined (m : Mem A X) : List A → List (Step A X) → Prop
  | _, [] => True
  | cov, .snap as :: ss => Disciplined m (as ++ cov) ss
  | cov, .write a _ :: ss => a ∈ cov ∧ Disciplined m cov ss
  | cov, .alloc as _ :: ss => (∀ a ∈ as, m.live a = false) ∧ Disciplined m (as ++ cov) ss
  | cov, .free _ :: ss => Disciplined m cov ss

end Verif.Tx
