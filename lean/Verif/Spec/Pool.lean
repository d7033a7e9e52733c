import Verif.Model.Main
/-
Independent vocabulary for the worker pool: which files a directory tree holds, which work is pending.
-/
set_option autoImplicit false

namespace Qlc.Spec

/-- `p` is a regular file with extension `graphql` below the entry, reached through directories that can
be listed completely.  (Links and other special entries lead nowhere.) -/
inductive FoundIn : Entry → Path → Prop where
  | file {d : Path} {es : List Entry} {p : Path} : (∀ e, Entry.bad e ∉ es) → Entry.file p ∈ es →
      p.extension = some "graphql" → FoundIn (.dir d es) p
  | sub {d : Path} {es : List Entry} {sub : Entry} {p : Path} : (∀ e, Entry.bad e ∉ es) → sub ∈ es →
      FoundIn sub p → FoundIn (.dir d es) p

/-- A listing without unreadable entries. -/
def listable : List Entry → Bool
  | [] => true
  | .bad _ :: _ => false
  | _ :: rest => listable rest

mutual
/-- The `.graphql` files of an entry that is walked as a directory, in listing order. -/
def filesOf : Entry → List Path
  | .dir _ es => if listable es then filesOfList es else []
  | _ => []
/-- The `.graphql` files of a listing. -/
def filesOfList : List Entry → List Path
  | [] => []
  | .file p :: rest => (if p.extension = some "graphql" then [p] else []) ++ filesOfList rest
  | e :: rest => filesOf e ++ filesOfList rest
end

/-- The first unreadable entry of a listing. -/
def firstBad : List Entry → Option String
  | [] => none
  | .bad e :: _ => some e
  | _ :: rest => firstBad rest

mutual
/-- The read errors of walking an entry as a directory. -/
def dirErrors : Entry → List Msg
  | .dir p es =>
    match firstBad es with
    | some e => [.ioError "read" e p]
    | none => dirErrorsList es
  | .badDir p err => [.ioError "read" err p]
  | .bad err => [.ioError "read" err ⟨false, []⟩]
  | .file p => [.ioError "read" "Not a directory" p]
  | .other p => [.ioError "read" "Not a directory" p]
/-- The read errors of the directories in a listing. -/
def dirErrorsList : List Entry → List Msg
  | [] => []
  | .dir p es :: rest => dirErrors (.dir p es) ++ dirErrorsList rest
  | .badDir p err :: rest => dirErrors (.badDir p err) ++ dirErrorsList rest
  | _ :: rest => dirErrorsList rest
end

/-- The files a piece of work leads to. -/
def workFiles : Work → List Path
  | .graphQl p => [p]
  | .dirEntry e => filesOf e

/-- Work in a queue message. -/
def queuedWork : QMsg → List Work
  | .work w => [w]
  | .quit => []

/-- Work in a worker's hands: received and not finished, or still to be sent. -/
def heldWork (w : WorkerSt) : List Work :=
  match w.pc with
  | .gotWork w => [w]
  | .gotWork2 w => [w]
  | .running w => [w]
  | .sending ws => ws
  | _ => []

/-- All work that is queued or in a worker's hands. -/
def pending {σ : Type} (s : PoolSt σ) : List Work :=
  s.queue.flatMap queuedWork ++ s.workers.flatMap heldWork

/-- The states the pool can be in: started with `threads` workers on `root`, after some schedule. -/
def ReachedBy {σ : Type} (compile : Compiler σ) (world : σ) (threads : Nat) (root : Entry)
    (sched : List Nat) (s : PoolSt σ) : Prop :=
  s = (PoolSt.init world threads root).run compile threads sched

/-- The worker's thread has ended by a panic. -/
def isPanicked (w : WorkerSt) : Bool := match w.pc with | .panicked => true | _ => false

/-- The worker's thread has returned. -/
def isExited (w : WorkerSt) : Bool := match w.pc with | .exited => true | _ => false

end Qlc.Spec

namespace Qlc.Spec

/-- Worker `i`'s next step is to read the waiting counter after finding the queue empty, and it will
find everybody waiting: it decides to send `Quit`s. -/
def DecidesToQuit {σ : Type} (threads : Nat) (s : PoolSt σ) (i : Nat) : Prop :=
  ∃ me : WorkerSt, s.workers[i]? = some me ∧ me.pc = .emptyLoad ∧ s.numWaiting = threads

/-- Along the schedule, whenever a worker decides to send `Quit`s no work is queued or in a worker's
hands. -/
def NoEarlyQuit {σ : Type} (compile : Compiler σ) (threads : Nat) (s : PoolSt σ)
    (sched : List Nat) : Prop :=
  ∀ before i after, sched = before ++ i :: after →
    DecidesToQuit threads (s.run compile threads before) i →
    pending (s.run compile threads before) = []

end Qlc.Spec

namespace Qlc.Spec

/-- The worker has taken work off the channel (worker_pool.rs:161) but is not yet counted as busy (it has
not executed line 163), so it may still be counted as waiting. -/
def JustTook (w : WorkerSt) : Prop := ∃ x, w.pc = .gotWork x

/-- Along the schedule, no worker decides to send `Quit`s while another one has just taken work. -/
def NoQuitWhileTaking {σ : Type} (compile : Compiler σ) (threads : Nat) (s : PoolSt σ)
    (sched : List Nat) : Prop :=
  ∀ before i after, sched = before ++ i :: after →
    DecidesToQuit threads (s.run compile threads before) i →
    ∀ w ∈ (s.run compile threads before).workers, ¬ JustTook w

/-- Along the schedule, a worker that has taken work is the next one to do a step: taking work and saying
so are not separated. -/
def TakesUndisturbed {σ : Type} (compile : Compiler σ) (threads : Nat) (s : PoolSt σ)
    (sched : List Nat) : Prop :=
  ∀ before i after, sched = before ++ i :: after →
    ∀ (j : Nat) (w : WorkerSt), (s.run compile threads before).workers[j]? = some w → JustTook w → j = i

end Qlc.Spec
