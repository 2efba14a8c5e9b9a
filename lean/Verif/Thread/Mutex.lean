import Verif.Thread.Base

/-!
# The mutex and the condition variable, on futexes

lib/thread/mutex+futex.myr and lib/thread/condvar+linux.myr: one mutex, one condition variable bound to it, any number
of threads calling in any order, rightly or wrongly.
-/

namespace Verif.Thread.Mutex

/-- Where a thread is. `h` says that the thread holds the mutex while it is there. `k` is the continuation of an unlock:
`none` if the caller asked for it, `some seq` if it is the unlock inside `condwait`, which read the sequence number
`seq`. -/
inductive PC where
  /-- outside of all calls -/
  | out (h : Bool)
  /-- mutex+futex.myr:35 (`c = false`), 106 (`c = true`): load the owner and compare -/
  | chk (h : Bool) (c : Bool)
  /-- mutex+futex.myr:47, after `i` failures -/
  | spin (i : Nat)
  /-- mutex+futex.myr:60, 65, 113: exchange with `Contended` -/
  | xch
  /-- mutex+futex.myr:64, 114: wait on the mutex word -/
  | wait
  /-- asleep on the mutex word; `some seq`: moved there by a broadcast while in `condwait` -/
  | parked (k : Option Nat)
  /-- mutex+futex.myr:49, 67, 72, 116: acquired, the owner is not set yet -/
  | own
  /-- mutex+futex.myr:71 -/
  | try (h : Bool)
  /-- mutex+futex.myr:84: load the owner and compare -/
  | uchk (h : Bool) (k : Option Nat)
  /-- mutex+futex.myr:90 -/
  | uclr (k : Option Nat)
  /-- mutex+futex.myr:100: exchange with `Unlocked` -/
  | uxch (k : Option Nat)
  /-- mutex+futex.myr:101 -/
  | uwake (k : Option Nat)
  /-- condvar+linux.myr:27: load the sequence number -/
  | cread (h : Bool)
  /-- condvar+linux.myr:30: wait on the sequence number -/
  | cwait (k : Nat)
  /-- asleep on the sequence number -/
  | cparked (k : Nat)
  /-- condvar+linux.myr:42 -/
  | sig1 (h : Bool)
  /-- condvar+linux.myr:43; `m`: the sequence number after its own increment (not kept by the code) -/
  | sig2 (h : Bool) (m : Nat)
  /-- condvar+linux.myr:47 -/
  | bc1 (h : Bool)
  /-- condvar+linux.myr:53; `m` as above -/
  | bc2 (h : Bool) (m : Nat)
  deriving DecidableEq, Repr

/-- The calls: mutex+futex.myr:15-17, condvar+linux.myr:16-18. -/
inductive Call where
  | lock | trylock | unlock | condwait | condsignal | condbroadcast
  deriving DecidableEq, Repr

/-- The shared memory and the threads. `seq` counts the increments of the 32-bit sequence word, which is
`seq % 2 ^ 32`. `bdone` is the greatest `m` of a finished broadcast, `wasted` the greatest `m` of a finished signal that
woke nobody (neither is kept by the code). `dead`: the process has
killed itself (`std.suicide`). -/
structure St (n : Nat) where
  word : Nat
  owner : Option (Fin n)
  seq : Nat
  pc : Fin n → PC
  bdone : Nat
  wasted : Nat
  dead : Bool

/-- mutex+futex.myr:28-30 `mkmtx`; condvar+linux.myr:21-23 `mkcond`. The threads are outside. -/
def init (n : Nat) : St n := ⟨0, none, 0, fun _ => .out false, 0, 0, false⟩

/-- A call, a step of a thread (`w`: the sleeper to be woken, if the step wakes one), a wake-up without reason
(`again`: the system call was interrupted and is repeated, futex+linux.myr:20-26). -/
inductive Ev (n : Nat) where
  | call (t : Fin n) (c : Call)
  | go (t : Fin n) (w : Option (Fin n))
  | spurious (t : Fin n) (again : Bool)

/-- The first step of a call. mutex+futex.myr:32, 70, 78; condvar+linux.myr:25, 41, 46. -/
def enter (h : Bool) : Call → PC
  | .lock => .chk h false
  | .trylock => .try h
  | .unlock => .uchk h none
  | .condwait => .cread h
  | .condsignal => .sig1 h
  | .condbroadcast => .bc1 h

/-- Return of a sleeper on the mutex word: mutex+futex.myr:64-65, 113-114; condvar+linux.myr:30, 38. -/
def woken : PC → PC
  | .parked (some _) => .chk false true
  | _ => .xch

/-- The end of an unlock: mutex+futex.myr:103; condvar+linux.myr:29-30. -/
def after : Option Nat → PC
  | none => .out false
  | some k => .cwait k

def isParked : PC → Bool
  | .parked _ => true
  | _ => false

def isCparked : PC → Bool
  | .cparked _ => true
  | _ => false

/-- `Futexrequeue` with one to wake: condvar+linux.myr:53-55. -/
def requeue : PC → PC
  | .cparked k => .parked (some k)
  | p => p

/-- One step of a thread. mutex+futex.myr:22-117; condvar+linux.myr:25-56. `none`: the event cannot happen. -/
def go {n : Nat} (s : St n) (t : Fin n) (w : Option (Fin n)) : Option (St n) :=
  match s.pc t with
  | .out _ => none
  | .chk _ c =>
    if s.owner = some t then some { s with dead := true }
    else some { s with pc := upd s.pc t (if c then .xch else .spin 0) }
  | .spin i =>
    if s.word = 0 then some { s with word := 1, pc := upd s.pc t .own }
    else if i + 1 < 10 then some { s with pc := upd s.pc t (.spin (i + 1)) }
    else if s.word = 1 then some { s with pc := upd s.pc t .xch }
    else some { s with pc := upd s.pc t .wait }
  | .xch => some { s with word := 2, pc := upd s.pc t (if s.word = 0 then .own else .wait) }
  | .wait => some { s with pc := upd s.pc t (if s.word = 2 then .parked none else .xch) }
  | .parked _ => none
  | .own => some { s with owner := some t, pc := upd s.pc t (.out true) }
  | .try h =>
    if s.word = 0 then some { s with word := 1, pc := upd s.pc t .own }
    else some { s with pc := upd s.pc t (.out h) }
  | .uchk _ k =>
    if s.owner = some t then some { s with pc := upd s.pc t (.uclr k) }
    else some { s with dead := true }
  | .uclr k => some { s with owner := none, pc := upd s.pc t (.uxch k) }
  | .uxch k => some { s with word := 0, pc := upd s.pc t (if s.word = 2 then .uwake k else after k) }
  | .uwake k => match w with
    | some u =>
      if isParked (s.pc u) then some { s with pc := upd (upd s.pc u (woken (s.pc u))) t (after k) } else none
    | none => if ∃ u, isParked (s.pc u) then none else some { s with pc := upd s.pc t (after k) }
  | .cread h => some { s with pc := upd s.pc t (.uchk h (some s.seq)) }
  | .cwait k => some { s with pc := upd s.pc t (if s.seq % 2 ^ 32 = k % 2 ^ 32 then .cparked k else .chk false true) }
  | .cparked _ => none
  | .sig1 h => some { s with seq := s.seq + 1, pc := upd s.pc t (.sig2 h (s.seq + 1)) }
  | .sig2 h m => match w with
    | some u =>
      if isCparked (s.pc u) then some { s with pc := upd (upd s.pc u (.chk false true)) t (.out h) } else none
    | none => if ∃ u, isCparked (s.pc u) then none else some { s with
        pc := upd s.pc t (.out h), wasted := max s.wasted m }
  | .bc1 h => some { s with seq := s.seq + 1, pc := upd s.pc t (.bc2 h (s.seq + 1)) }
  | .bc2 h m => match w with
    | some u =>
      if isCparked (s.pc u) then some { s with
        pc := upd (upd (fun v => requeue (s.pc v)) u (.chk false true)) t (.out h), bdone := max s.bdone m } else none
    | none => if ∃ u, isCparked (s.pc u) then none else some { s with pc := upd s.pc t (.out h), bdone := max s.bdone m }

/-- One event. Nothing happens any more once the process is dead. -/
def step {n : Nat} (s : St n) (e : Ev n) : Option (St n) :=
  if s.dead then none else match e with
  | .call t c => match s.pc t with
    | .out h => some { s with pc := upd s.pc t (enter h c) }
    | _ => none
  | .go t w => go s t w
  | .spurious t again => match s.pc t with
    | .parked none => some { s with pc := upd s.pc t (if again then .wait else .xch) }
    | .parked (some k) => some { s with pc := upd s.pc t (if again then .cwait k else .chk false true) }
    | .cparked k => some { s with pc := upd s.pc t (if again then .cwait k else .chk false true) }
    | _ => none

end Verif.Thread.Mutex
