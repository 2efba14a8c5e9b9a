import Verif.Thread.Base

/-!
# C75: futures

lib/thread/future.myr over lib/thread/sem+futex.myr: one thread calls `futput`, one thread calls `futget`, which frees
the future. Every access to the future after it was freed is undefined behaviour. `ftxwake` only passes the address to
the kernel (sem+futex.myr:65-69), which is not an access.
-/

namespace Verif.Thread.Future

/-- The putting thread. future.myr:20-23, sem+futex.myr:54-71. -/
inductive P where
  | out
  /-- future.myr:21 -/
  | write (v : Nat)
  /-- sem+futex.myr:61 -/
  | add
  /-- sem+futex.myr:64-69; `hi`: the number of waiters -/
  | wake (hi : Nat)
  | done
  deriving DecidableEq, Repr

/-- The getting thread. future.myr:25-32, sem+futex.myr:26-39. -/
inductive G where
  | out
  /-- sem+futex.myr:29 -/
  | winc
  /-- 31 -/
  | wget
  /-- 32 -/
  | wcas (v : Nat)
  /-- 33 -/
  | wdec
  /-- 37 -/
  | wwait
  /-- asleep in 37 -/
  | parked
  /-- future.myr:29 -/
  | read
  /-- future.myr:30 -/
  | free (v : Option Nat)
  | done (v : Option Nat)
  deriving DecidableEq, Repr

/-- future.myr:6-9. The value is unset (`none`) at first. `put`: the value given to `futput`. -/
structure St where
  alive : Bool
  val : Option Nat
  sem : Nat
  nw : Nat
  p : P
  g : G
  put : Option Nat
  ub : Bool
  deriving DecidableEq, Repr

/-- future.myr:16-18 `mkfut`. -/
def init : St := ⟨true, none, 0, 0, .out, .out, none, false⟩

inductive Ev where
  | callPut (v : Nat)
  | callGet
  | goP
  | goG
  | spurious (again : Bool)

/-- One event. An access is made by `touch`. -/
def step (s : St) : Ev → Option St
  | .callPut v => if s.p = .out then some { s with p := .write v, put := some v } else none
  | .callGet => if s.g = .out then some { s with g := .winc } else none
  | .goP =>
    let touch := fun (x : St) => if s.alive then some x else some { s with ub := true }
    match s.p with
    | .out => none
    | .write v => touch { s with val := some v, p := .add }
    | .add => touch { s with sem := s.sem + 1, p := .wake s.nw }
    | .wake hi => some { s with p := .done, g := if 0 < hi ∧ s.g = .parked then .wget else s.g }
    | .done => none
  | .goG =>
    let touch := fun (x : St) => if s.alive then some x else some { s with ub := true }
    match s.g with
    | .out => none
    | .winc => touch { s with nw := s.nw + 1, g := .wget }
    | .wget => touch { s with g := if 0 < s.sem then .wcas s.sem else .wwait }
    | .wcas v => touch (if s.sem = v then { s with sem := v - 1, g := .wdec } else { s with g := .wget })
    | .wdec => touch { s with nw := s.nw - 1, g := .read }
    | .wwait => touch { s with g := if s.sem = 0 then .parked else .wget }
    | .parked => none
    | .read => touch { s with g := .free s.val }
    | .free v => if s.alive then some { s with alive := false, g := .done v } else some { s with ub := true }
    | .done _ => none
  | .spurious again => if s.g = .parked then some { s with g := if again then .wwait else .wget } else none

/-- The putter has made its last access. -/
def late : P → Bool
  | .wake _ | .done => true
  | _ => false

/-- The getter has got the permit. -/
def past : G → Bool
  | .wdec | .read | .free _ | .done _ => true
  | _ => false

/-- The getter has freed the future. -/
def gone : G → Bool
  | .done _ => true
  | _ => false

/-- The getter is counted as a waiter. -/
def waiter : G → Bool
  | .wget | .wwait | .parked | .wcas _ | .wdec => true
  | _ => false

structure Inv (s : St) : Prop where
  ub : s.ub = false
  alive : s.alive = !gone s.g
  sem : s.sem = bif late s.p && !past s.g then 1 else 0
  order : past s.g = true → late s.p = true
  cas : ∀ v, s.g = .wcas v → v = 1
  nw : s.nw = bif waiter s.g then 1 else 0
  put : ∀ v, s.p = .write v → s.put = some v
  val : s.p = .add ∨ late s.p = true → s.val = s.put ∧ s.put ≠ none
  got : ∀ v, s.g = .free v ∨ s.g = .done v → v = s.put
  wake : s.g = .parked → s.sem = 1 → s.p = .wake 1

theorem inv_step (s : St) (e : Ev) (s' : St) (hi : Inv s) (h : step s e = some s') : Inv s' := by
  obtain ⟨alive, val, sem, nw, p, g, put, ub⟩ := s
  obtain ⟨h1, h2, h3, h4, h5, h6, h7, h8, h9, h10⟩ := hi
  dsimp only at h1 h2 h3 h4 h5 h6 h7 h8 h9 h10
  cases e with
  | callPut v => cases p <;> simp [step] at h; subst h; cases g <;> constructor <;> simp_all [late, past]
  | callGet => cases g <;> simp [step] at h; subst h; constructor <;> simp_all [gone, past, waiter]
  | spurious again => cases g <;> simp [step] at h; subst h; cases again <;> constructor <;> simp_all [gone, past, waiter]
  | goP =>
    subst h1; subst h2; subst h3; subst h6
    cases p <;> cases g <;> simp [step, late, past, gone, waiter] at h h8 <;> subst h <;> constructor <;> grind [late, past, gone, waiter]
  | goG =>
    subst h1; subst h2; subst h3; subst h6
    cases g <;> cases p <;> simp [step, late, past, gone, waiter] at h h5 <;> subst h <;> constructor <;> simp_all [late, past, gone, waiter]

theorem inv_run {es : List Ev} {s : St} (hr : run step init es = some s) : Inv s :=
  run_inv inv_step (s := init) (by constructor <;> simp [init, late, past, gone, waiter]) hr

/-- **C75**: the future is never accessed after it was freed, by either thread, for any schedule. -/
theorem future_memory_safe {es : List Ev} {s : St} (hr : run step init es = some s) : s.ub = false := (inv_run hr).ub

/-- **C75**: `futget` returns the value given to `futput`, and only once `futput` was called. -/
theorem future_returns {es : List Ev} {s : St} (hr : run step init es = some s) {r : Option Nat} (h : s.g = .done r) :
    ∃ v, s.put = some v ∧ r = some v := by
  obtain ⟨h1, h2, h3, h4, h5, h6, h7, h8, h9, h10⟩ := inv_run hr
  have hl := h4 (by rw [h]; rfl)
  have := (h8 (.inr hl)).2
  rw [h9 r (.inr h)]
  cases hp : s.put with
  | none => exact absurd hp this
  | some v => exact ⟨v, rfl, rfl⟩

/-- **C75**: `futget` does not sleep for good once `futput` has returned. -/
theorem future_wakes {es : List Ev} {s : St} (hr : run step init es = some s) (hp : s.p = .done) : s.g ≠ .parked := by
  intro hg
  obtain ⟨h1, h2, h3, h4, h5, h6, h7, h8, h9, h10⟩ := inv_run hr
  have := h10 hg (by rw [h3, hp, hg]; rfl)
  rw [hp] at this
  cases this

example : run step init [.callGet, .goG, .goG, .callPut 7, .goG, .goP, .spurious true, .goG, .goP, .goP, .goG, .goG, .goG, .goG, .goG] =
    some ⟨false, some 7, 0, 0, .done, .done (some 7), some 7, false⟩ := by decide

/-- The getter may be through before the putter has returned. -/
example : (run step init [.callPut 7, .goP, .goP, .callGet, .goG, .goG, .goG, .goG, .goG, .goG, .goP]).map (fun s => (s.g, s.alive, s.p, s.ub)) =
    some (.done (some 7), false, .done, false) := by decide

end Verif.Thread.Future
