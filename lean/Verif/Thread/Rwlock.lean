import Verif.Thread.Base

/-!
# The read/write lock on futexes

lib/thread/rwlock+futex.myr: one lock, any number of threads.
-/

namespace Verif.Thread.Rwlock

/-- rwlock+futex.myr:30 `Nrmask`. -/
def Nrmask : Nat := 0x7fffffff

/-- rwlock+futex.myr:31 `Waitbit`. -/
def Waitbit : Nat := 0x80000000

/-- `s & Nrmask` for a 32-bit `s`. -/
def nr (s : Nat) : Nat := s % 2 ^ 31

/-- `s & Waitbit != 0` for a 32-bit `s`. -/
def waitbit (s : Nat) : Bool := decide (2 ^ 31 ≤ s)

/-- `s | Waitbit` for a 32-bit `s`. -/
def setwait (s : Nat) : Nat := if waitbit s then s else s + Waitbit

/-- The next step of a thread; the numbers are lines of rwlock+futex.myr. -/
inductive Loc where
  /-- outside of all calls -/
  | out
  /-- 39 `rdlock`; 98 `tryrdlock` (`y`) -/
  | rget (y : Bool)
  /-- 58; 103 (`y`) -/
  | rcas (y : Bool) (s : Nat)
  /-- 49 -/
  | rmark (s : Nat)
  /-- 50. The time-out is 0, so the wait ends at once, woken or not: the sleep is one step. -/
  | rwait
  /-- 67 -/
  | wchk
  /-- 79 -/
  | wcas
  /-- 90 -/
  | wmark (s : Nat)
  /-- 91. As for 50. -/
  | wwait
  /-- 81, 113 -/
  | wown
  /-- 112 -/
  | wtry
  /-- 124-126 -/
  | rdec
  /-- 133 -/
  | rclr
  /-- 134. Nobody sleeps for good, so that the wake-up has no effect. -/
  | rwake
  /-- 140 -/
  | uchk
  /-- 146 -/
  | uclr
  /-- 155 -/
  | uxch
  /-- 156. As for 134. -/
  | uwake
  deriving DecidableEq, Repr

/-- A thread: its next step, the number of read locks it has, whether it has the write lock (the last two are not kept by
the code). -/
structure PC where
  loc : Loc
  r : Nat
  w : Bool
  deriving DecidableEq, Repr

/-- rwlock+futex.myr:22-27. -/
inductive Call where
  | rdlock | wrlock | tryrdlock | trywrlock | rdunlock | wrunlock
  deriving DecidableEq, Repr

/-- The word, the owner, the threads, the end of the process (`std.die`, `std.suicide`, `std.assert`). -/
structure St (n : Nat) where
  word : Nat
  owner : Option (Fin n)
  pc : Fin n → PC
  dead : Bool

/-- rwlock+futex.myr:33-35 `mkrwlock`. -/
def init (n : Nat) : St n := ⟨0, none, fun _ => ⟨.out, 0, false⟩, false⟩

/-- A call or a step. -/
inductive Ev (n : Nat) where
  | call (t : Fin n) (c : Call)
  | go (t : Fin n)

/-- The first step of a call. -/
def enter : Call → Loc
  | .rdlock => .rget false
  | .tryrdlock => .rget true
  | .wrlock => .wchk
  | .trywrlock => .wtry
  | .rdunlock => .rdec
  | .wrunlock => .uchk

/-- Thread `t` goes to `l`. -/
def St.at {n : Nat} (s : St n) (t : Fin n) (l : Loc) : St n := { s with pc := upd s.pc t { s.pc t with loc := l } }

/-- The way on from the decrement: rwlock+futex.myr:126. -/
def dec (prev : Nat) : Loc := if nr prev = 1 ∧ waitbit prev = true then .rclr else .out

/-- One step of a thread. rwlock+futex.myr:37-158. -/
def go {n : Nat} (s : St n) (t : Fin n) : Option (St n) :=
  match (s.pc t).loc with
  | .out => none
  | .rget y =>
    if nr s.word = Nrmask - 1 then some { s with dead := true }
    else if nr s.word = Nrmask then some (s.at t (if y then .out else .rmark s.word))
    else some (s.at t (.rcas y s.word))
  | .rcas y v =>
    if s.word = v then some { s with word := (v + 1) % 2 ^ 32, pc := upd s.pc t ⟨.out, (s.pc t).r + 1, (s.pc t).w⟩ }
    else some (s.at t (.rget y))
  | .rmark v =>
    if s.word = v then some ({ s with word := Nrmask + Waitbit }.at t .rwait)
    else some (s.at t (.rget false))
  | .rwait => some (s.at t (.rget false))
  | .wchk =>
    if s.owner = some t then some { s with dead := true }
    else some (s.at t .wcas)
  | .wcas =>
    if s.word = 0 then some { s with word := Nrmask, pc := upd s.pc t ⟨.wown, (s.pc t).r, true⟩ }
    else some (s.at t (.wmark s.word))
  | .wmark v =>
    if s.word = v then some ({ s with word := setwait v }.at t .wwait)
    else some (s.at t .wchk)
  | .wwait => some (s.at t .wchk)
  | .wown => some { s with owner := some t, pc := upd s.pc t { s.pc t with loc := .out } }
  | .wtry =>
    if s.word = 0 then some { s with word := Nrmask, pc := upd s.pc t ⟨.wown, (s.pc t).r, true⟩ }
    else some (s.at t .out)
  | .rdec =>
    if nr s.word = 0 then some { s with word := (s.word + (2 ^ 32 - 1)) % 2 ^ 32, dead := true }
    else some { s with word := (s.word + (2 ^ 32 - 1)) % 2 ^ 32, pc := upd s.pc t ⟨dec s.word, (s.pc t).r - 1, (s.pc t).w⟩ }
  | .rclr =>
    if s.word = Waitbit then some ({ s with word := 0 }.at t .rwake)
    else some (s.at t .out)
  | .rwake => some (s.at t .out)
  | .uchk =>
    if s.owner = some t then some (s.at t .uclr)
    else some { s with dead := true }
  | .uclr => some { s with owner := none, pc := upd s.pc t { s.pc t with loc := .uxch } }
  | .uxch => some { s with word := 0, pc := upd s.pc t ⟨if waitbit s.word then .uwake else .out, (s.pc t).r, false⟩ }
  | .uwake => some (s.at t .out)

/-- One event. Precondition: a thread calls `rdunlock` only while it has a read lock (the code cannot check this); all
other calls are free. -/
def step {n : Nat} (s : St n) : Ev n → Option (St n)
  | .call t c =>
    if s.dead then none
    else if (s.pc t).loc = .out ∧ (c = .rdunlock → 0 < (s.pc t).r) then some (s.at t (enter c))
    else none
  | .go t => if s.dead then none else go s t

end Verif.Thread.Rwlock
