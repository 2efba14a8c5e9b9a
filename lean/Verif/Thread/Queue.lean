import Verif.Thread.Base

/-!
# Queues

lib/thread/queue.myr with the condition variable of lib/thread/condvar+linux.myr. The mutex is abstract: it is held by
at most one thread, and a thread asking for it waits until it is free (proved of both mutexes: `mutex_exclusion`,
`mutex_no_lost_wakeup`, `spin_mutex_exclusion`). The code run while it is held is split at the operations on the
condition variable only: nothing else in it is accessed without the mutex. The nodes live in a heap: a read or a write
of a node which is not allocated, and freeing it again, are undefined behaviour. The allocator may give out the
address of a freed node again.
-/

namespace Verif.Thread.Queue

/-- The next step of a thread. -/
inductive Loc where
  | out
  /-- queue.myr:36 -/
  | palloc (v : Nat)
  /-- 37 -/
  | plock (a v : Nat)
  /-- 38-44 -/
  | plink (a v : Nat)
  /-- 45, condvar+linux.myr:42 -/
  | psig
  /-- 45, condvar+linux.myr:43 -/
  | pwake
  /-- 46 -/
  | punlock
  /-- 52 -/
  | glock
  /-- 54 -/
  | gtest
  /-- 55, condvar+linux.myr:27 -/
  | cseq
  /-- 55, condvar+linux.myr:29 -/
  | cunlock (k : Nat)
  /-- 55, condvar+linux.myr:30 -/
  | cwait (k : Nat)
  /-- asleep in condvar+linux.myr:30 -/
  | parked (k : Nat)
  /-- 55, condvar+linux.myr:38 -/
  | crelock
  /-- 58-59 -/
  | gtake
  /-- 61 -/
  | gunlock (a : Nat)
  /-- 62 -/
  | gread (a : Nat)
  /-- 63 -/
  | gfree (a v : Nat)
  deriving DecidableEq, Repr

/-- queue.myr:6-16. `sigs` counts the signals; the sequence number of the condition variable is it modulo `2 ^ 32`.
Histories: `enq`: the values put, in order; `deq`: the values taken and by whom; `ret`: what the calls of `qget`
returned to each thread. `ub`: undefined behaviour has happened. -/
structure St (n : Nat) where
  holder : Option (Fin n)
  heap : Nat → Option (Nat × Option Nat)
  hd : Option Nat
  tl : Option Nat
  sigs : Nat
  pc : Fin n → Loc
  enq : List Nat
  deq : List (Fin n × Nat)
  ret : Fin n → List Nat
  ub : Bool

/-- queue.myr:25-30 `qinit`. -/
def init (n : Nat) : St n := ⟨none, fun _ => none, none, none, 0, fun _ => .out, [], [], fun _ => [], false⟩

inductive Ev (n : Nat) where
  | put (t : Fin n) (v : Nat)
  | get (t : Fin n)
  /-- One step; `a`: the address the allocator returns; `w`: the thread the kernel wakes. -/
  | go (t : Fin n) (a : Nat) (w : Option (Fin n))
  /-- Waking for no reason; `again`: a signal, `ftxwait` tries again (lib/thread/futex+linux.myr:16-57). -/
  | spurious (t : Fin n) (again : Bool)

def sethp (h : Nat → Option (Nat × Option Nat)) (a : Nat) (x : Option (Nat × Option Nat)) : Nat → Option (Nat × Option Nat) :=
  fun b => if b = a then x else h b

/-- queue.myr:38-44: append node `a`. -/
def link {n : Nat} (s : St n) (a v : Nat) : St n :=
  match s.hd with
  | none => { s with hd := some a, tl := some a, enq := s.enq ++ [v] }
  | some _ => match s.tl with
    | none => { s with ub := true }
    | some z => match s.heap z with
      | none => { s with ub := true }
      | some (y, _) => { s with heap := sethp s.heap z (some (y, some a)), tl := some a, enq := s.enq ++ [v] }

def isParked : Loc → Bool
  | .parked _ => true
  | _ => false

/-- One step of a thread. -/
def go {n : Nat} (s : St n) (t : Fin n) (a : Nat) (w : Option (Fin n)) : Option (St n) :=
  let lock := fun (x : Loc) => if s.holder = none then some { s with holder := some t, pc := upd s.pc t x } else none
  let unlock := fun (x : Loc) => some { s with holder := none, pc := upd s.pc t x }
  match s.pc t with
  | .out => none
  | .palloc v => if s.heap a = none then some { s with heap := sethp s.heap a (some (v, none)), pc := upd s.pc t (.plock a v) } else none
  | .plock b v => lock (.plink b v)
  | .plink b v => let s := link s b v; some { s with pc := upd s.pc t .psig }
  | .psig => some { s with sigs := s.sigs + 1, pc := upd s.pc t .pwake }
  | .pwake => match w with
    | none => if ∀ u, isParked (s.pc u) = false then some { s with pc := upd s.pc t .punlock } else none
    | some u => match s.pc u with
      | .parked _ => some { s with pc := upd (upd s.pc u .crelock) t .punlock }
      | _ => none
  | .punlock => unlock .out
  | .glock => lock .gtest
  | .gtest => some { s with pc := upd s.pc t (if s.hd = none then .cseq else .gtake) }
  | .cseq => some { s with pc := upd s.pc t (.cunlock (s.sigs % 2 ^ 32)) }
  | .cunlock k => unlock (.cwait k)
  | .cwait k => some { s with pc := upd s.pc t (if s.sigs % 2 ^ 32 = k then .parked k else .crelock) }
  | .parked _ => none
  | .crelock => lock .gtest
  | .gtake => match s.hd with
    | none => some { s with ub := true }
    | some b => match s.heap b with
      | none => some { s with ub := true }
      | some (v, nx) => some { s with hd := nx, deq := s.deq ++ [(t, v)], pc := upd s.pc t (.gunlock b) }
  | .gunlock b => unlock (.gread b)
  | .gread b => match s.heap b with
    | none => some { s with ub := true }
    | some (v, _) => some { s with pc := upd s.pc t (.gfree b v) }
  | .gfree b v => match s.heap b with
    | none => some { s with ub := true }
    | some _ => some { s with heap := sethp s.heap b none, ret := upd s.ret t (s.ret t ++ [v]), pc := upd s.pc t .out }

/-- One event. -/
def step {n : Nat} (s : St n) : Ev n → Option (St n)
  | .put t v => if s.pc t = .out then some { s with pc := upd s.pc t (.palloc v) } else none
  | .get t => if s.pc t = .out then some { s with pc := upd s.pc t .glock } else none
  | .go t a w => go s t a w
  | .spurious t again => match s.pc t with
    | .parked k => some { s with pc := upd s.pc t (if again then .cwait k else .crelock) }
    | _ => none

end Verif.Thread.Queue
