import Verif.Thread.Base

/-!
# The semaphore on futexes

lib/thread/sem+futex.myr: one semaphore, any number of threads.
-/

namespace Verif.Thread.Sem

/-- The next step of a thread; the numbers are lines of sem+futex.myr. -/
inductive Loc where
  /-- outside of all calls -/
  | out
  /-- 29 -/
  | winc
  /-- 31: load the value -/
  | wget
  /-- 32 -/
  | wcas (v : Nat)
  /-- 33 -/
  | wdec
  /-- 37: wait for the value to differ from 0 (the loop before ends with `v` = 0) -/
  | wwait
  /-- asleep -/
  | parked
  /-- 43 -/
  | tget
  /-- 47 -/
  | tcas (v : Nat)
  /-- 61 -/
  | padd
  /-- 62-64; `lo`, `hi`: the halves of the word that was read -/
  | pchk (lo hi : Nat)
  /-- 69 -/
  | pwake
  deriving DecidableEq, Repr

/-- sem+futex.myr:17-19. -/
inductive Call where
  | wait | trywait | post
  deriving DecidableEq, Repr

/-- The two halves of the 64-bit word, the threads, the end of the process. `posts` counts the increments, `waits` the
decrements (neither is kept by the code). -/
structure St (n : Nat) where
  val : Nat
  nw : Nat
  pc : Fin n → Loc
  posts : Nat
  waits : Nat
  dead : Bool

/-- sem+futex.myr:22-24 `mksem`. The field that is left out is zero: 6/simp.c clears a structure that is not given in
full. -/
def init (n : Nat) (v : Nat) : St n := ⟨v, 0, fun _ => .out, 0, 0, false⟩

inductive Ev (n : Nat) where
  | call (t : Fin n) (c : Call)
  | go (t : Fin n) (w : Option (Fin n))
  | spurious (t : Fin n) (again : Bool)

/-- The first step of a call. -/
def enter : Call → Loc
  | .wait => .winc
  | .trywait => .tget
  | .post => .padd

/-- Thread `t` goes to `l`. -/
def St.at {n : Nat} (s : St n) (t : Fin n) (l : Loc) : St n := { s with pc := upd s.pc t l }

/-- One step of a thread. sem+futex.myr:26-71. -/
def go {n : Nat} (s : St n) (t : Fin n) (w : Option (Fin n)) : Option (St n) :=
  match s.pc t with
  | .out => none
  | .winc => some ({ s with nw := (s.nw + 1) % 2 ^ 32 }.at t .wget)
  | .wget => some (s.at t (if s.val = 0 then .wwait else .wcas s.val))
  | .wcas v =>
    if s.val = v then some ({ s with val := dec32 v, waits := s.waits + 1 }.at t .wdec)
    else some (s.at t .wget)
  | .wdec => some ({ s with nw := dec32 s.nw }.at t .out)
  | .wwait => some (s.at t (if s.val = 0 then .parked else .wget))
  | .parked => none
  | .tget => some (s.at t (if s.val = 0 then .out else .tcas s.val))
  | .tcas v =>
    if s.val = v then some ({ s with val := dec32 v, waits := s.waits + 1 }.at t .out)
    else some (s.at t .tget)
  | .padd => some ({ s with val := (s.val + 1) % 2 ^ 32, nw := (s.nw + (s.val + 1) / 2 ^ 32) % 2 ^ 32, posts := s.posts + 1 }.at t (.pchk s.val s.nw))
  | .pchk lo hi =>
    if lo = 2 ^ 32 - 1 then some { s with dead := true }
    else some (s.at t (if 0 < hi then .pwake else .out))
  | .pwake => match w with
    | some u => if s.pc u = .parked then some { s with pc := upd (upd s.pc u .wget) t .out } else none
    | none => if ∃ u, s.pc u = .parked then none else some (s.at t .out)

/-- One event. -/
def step {n : Nat} (s : St n) (e : Ev n) : Option (St n) :=
  if s.dead then none else match e with
  | .call t c => if s.pc t = .out then some (s.at t (enter c)) else none
  | .go t w => go s t w
  | .spurious t again => if s.pc t = .parked then some (s.at t (if again then .wwait else .wget)) else none

end Verif.Thread.Sem
