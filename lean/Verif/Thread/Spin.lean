import Verif.Thread.Base

/-!
# The locks for systems without futexes

lib/thread/mutex.myr, lib/thread/sem.myr, lib/thread/rwlock.myr. The naps between attempts are left out.
-/

namespace Verif.Thread.Spin

/-! ## mutex.myr -/

namespace Mutex

/-- The next step of a thread; the numbers are lines of mutex.myr. `h`: it holds the mutex. -/
inductive PC where
  | out (h : Bool)
  /-- 24, 32, 40, 48: `mtxlock` -/
  | lock (h : Bool)
  /-- 56: `mtxtrylock` -/
  | try (h : Bool)
  /-- 61: `mtxunlock` -/
  | unlock
  deriving DecidableEq, Repr

structure St (n : Nat) where
  word : Nat
  pc : Fin n → PC

/-- mutex.myr:16-18 `mkmtx`. -/
def init (n : Nat) : St n := ⟨0, fun _ => .out false⟩

inductive Ev (n : Nat) where
  | callLock (t : Fin n)
  | callTry (t : Fin n)
  | callUnlock (t : Fin n)
  | go (t : Fin n)

/-- One event. mutex.myr:21-62. Precondition: only the holder unlocks. -/
def step {n : Nat} (s : St n) : Ev n → Option (St n)
  | .callLock t => match s.pc t with
    | .out h => some { s with pc := upd s.pc t (.lock h) }
    | _ => none
  | .callTry t => match s.pc t with
    | .out h => some { s with pc := upd s.pc t (.try h) }
    | _ => none
  | .callUnlock t => match s.pc t with
    | .out true => some { s with pc := upd s.pc t .unlock }
    | _ => none
  | .go t => match s.pc t with
    | .out _ => none
    | .lock h => if s.word = 0 then some ⟨1, upd s.pc t (.out true)⟩ else some { s with pc := upd s.pc t (.lock h) }
    | .try h => if s.word = 0 then some ⟨1, upd s.pc t (.out true)⟩ else some { s with pc := upd s.pc t (.out h) }
    | .unlock => some ⟨0, upd s.pc t (.out false)⟩

def crit (p : PC) : Nat :=
  match p with
  | .out h | .lock h | .try h => if h then 1 else 0
  | .unlock => 1

structure Inv {n : Nat} (s : St n) : Prop where
  word : s.word = tot crit s.pc
  le : s.word ≤ 1

theorem inv_step {n : Nat} (s : St n) (e : Ev n) (s' : St n) (hi : Inv s) (h : step s e = some s') : Inv s' := by
  obtain ⟨h1, h2⟩ := hi
  have move : ∀ (t : Fin n) (x : PC), crit x = crit (s.pc t) → Inv { s with pc := upd s.pc t x } := by
    intro t x hx
    have := tot_upd crit s.pc t x
    exact ⟨by dsimp only; omega, h2⟩
  have take : ∀ (t : Fin n), s.word = 0 → Inv ⟨1, upd s.pc t (.out true)⟩ := by
    intro t hw
    have h := tot_upd crit s.pc t (.out true)
    have := le_tot crit s.pc t
    simp only [show crit (.out true) = 1 from rfl] at h
    exact ⟨by dsimp only; omega, Nat.le_refl _⟩
  cases e with
  | callLock t =>
    unfold step at h
    dsimp only at h
    cases hp : s.pc t with
    | out a => rw [hp] at h; cases h; exact move t _ (by rw [hp]; rfl)
    | _ => rw [hp] at h; cases h
  | callTry t =>
    unfold step at h
    dsimp only at h
    cases hp : s.pc t with
    | out a => rw [hp] at h; cases h; exact move t _ (by rw [hp]; rfl)
    | _ => rw [hp] at h; cases h
  | callUnlock t =>
    unfold step at h
    dsimp only at h
    cases hp : s.pc t with
    | out a =>
      rw [hp] at h
      cases a
      · cases h
      · cases h; exact move t _ (by rw [hp]; rfl)
    | _ => rw [hp] at h; cases h
  | go t =>
    unfold step at h
    dsimp only at h
    cases hp : s.pc t with
    | out a => rw [hp] at h; cases h
    | lock a =>
      rw [hp] at h
      dsimp only at h
      split at h <;> cases h
      · exact take t ‹_›
      · exact move t _ (by rw [hp])
    | «try» a =>
      rw [hp] at h
      dsimp only at h
      split at h <;> cases h
      · exact take t ‹_›
      · exact move t _ (by rw [hp]; rfl)
    | unlock =>
      rw [hp] at h; cases h
      have h := tot_upd crit s.pc t (.out false)
      have h' := le_tot crit s.pc t
      rw [hp] at h h'
      simp only [show crit (.out false) = 0 from rfl, show crit .unlock = 1 from rfl] at h h'
      exact ⟨by dsimp only; omega, Nat.zero_le _⟩

/-- **C19** for mutex.myr: at most one thread holds the mutex. -/
theorem spin_mutex_exclusion {n : Nat} {es : List (Ev n)} {s : St n} (hr : run step (init n) es = some s) {t u : Fin n}
    (ht : s.pc t = .out true) (hu : s.pc u = .out true) : t = u := by
  have hi : Inv s := run_inv inv_step ⟨(tot_zero fun _ => rfl).symm, Nat.zero_le _⟩ hr
  by_cases h : t = u
  · exact h
  · have := add_le_tot crit s.pc h (.out false) rfl
    rw [ht, hu] at this
    simp only [show crit (.out true) = 1 from rfl] at this
    have := hi.word
    have := hi.le
    omega

/-- **C19** for mutex.myr: a free mutex is taken at the next attempt. -/
theorem spin_mutex_takes {n : Nat} {es : List (Ev n)} {s : St n} (hr : run step (init n) es = some s) {t : Fin n} {h : Bool}
    (ht : s.pc t = .lock h) (hf : ∀ u, crit (s.pc u) = 0) : ∃ s', step s (.go t) = some s' ∧ s'.pc t = .out true := by
  have hi : Inv s := run_inv inv_step ⟨(tot_zero fun _ => rfl).symm, Nat.zero_le _⟩ hr
  have hw : s.word = 0 := by rw [hi.word]; exact tot_zero hf
  refine ⟨⟨1, upd s.pc t (.out true)⟩, ?_, upd_same _ _ _⟩
  unfold step
  dsimp only
  rw [ht]
  dsimp only
  rw [if_pos hw]

example : (run step (init 2) [.callLock 0, .go 0, .callLock 1, .go 1, .callTry 0, .go 0, .callUnlock 0, .go 0, .go 1]).map
    (fun s => (s.pc 0, s.pc 1)) = some (.out false, .out true) := by decide

end Mutex

/-! ## sem.myr -/

namespace Sem

/-- The next step of a thread; the numbers are lines of sem.myr. -/
inductive Loc where
  | out
  /-- 24, 30, 37, 44 load, `semwait` -/
  | wget
  /-- 24, 30, 37, 44 compare and swap -/
  | wcas (v : Nat)
  /-- 53 -/
  | tget
  /-- 57 -/
  | tcas (v : Nat)
  /-- 65 -/
  | padd
  /-- 65: the assertion fails -/
  | pdie
  deriving DecidableEq, Repr

structure St (n : Nat) where
  val : Nat
  pc : Fin n → Loc
  posts : Nat
  waits : Nat
  dead : Bool

/-- sem.myr:16-18 `mksem`. -/
def init (n v : Nat) : St n := ⟨v, fun _ => .out, 0, 0, false⟩

inductive Ev (n : Nat) where
  | callWait (t : Fin n)
  | callTry (t : Fin n)
  | callPost (t : Fin n)
  | go (t : Fin n)

/-- One step of a thread. sem.myr:20-66. -/
def go {n : Nat} (s : St n) (t : Fin n) : Option (St n) :=
  match s.pc t with
  | .out => none
  | .wget => some { s with pc := upd s.pc t (if s.val = 0 then .wget else .wcas s.val) }
  | .wcas v =>
    if s.val = v then some { s with val := dec32 v, waits := s.waits + 1, pc := upd s.pc t .out }
    else some { s with pc := upd s.pc t .wget }
  | .tget => some { s with pc := upd s.pc t (if s.val = 0 then .out else .tcas s.val) }
  | .tcas v =>
    if s.val = v then some { s with val := dec32 v, waits := s.waits + 1, pc := upd s.pc t .out }
    else some { s with pc := upd s.pc t .tget }
  | .padd => some { s with val := (s.val + 1) % 2 ^ 32, posts := s.posts + 1, pc := upd s.pc t (if s.val = 2 ^ 32 - 1 then .pdie else .out) }
  | .pdie => some { s with dead := true }

/-- One event. -/
def step {n : Nat} (s : St n) (e : Ev n) : Option (St n) :=
  if s.dead then none else match e with
  | .callWait t => if s.pc t = .out then some { s with pc := upd s.pc t .wget } else none
  | .callTry t => if s.pc t = .out then some { s with pc := upd s.pc t .tget } else none
  | .callPost t => if s.pc t = .out then some { s with pc := upd s.pc t .padd } else none
  | .go t => go s t

def locOk : Loc → Prop
  | .wcas v | .tcas v => 0 < v
  | _ => True

structure Inv {n : Nat} (v : Nat) (s : St n) : Prop where
  bnd : s.val < 2 ^ 32
  le : s.waits + s.val ≤ v + s.posts
  eq : (s.dead = false ∧ ∀ t, s.pc t ≠ .pdie) → s.waits + s.val = v + s.posts
  loc : ∀ t, locOk (s.pc t)

theorem inv_move {n v : Nat} {s : St n} (hi : Inv v s) (t : Fin n) (x : Loc) (val posts waits : Nat) (h1 : val < 2 ^ 32)
    (h2 : waits + val + (v + s.posts) ≤ v + posts + (s.waits + s.val))
    (h3 : x ≠ .pdie → waits + val + (v + s.posts) = v + posts + (s.waits + s.val)) (h4 : locOk x) (h5 : s.pc t ≠ .pdie) :
    Inv v { s with val := val, posts := posts, waits := waits, pc := upd s.pc t x } := by
  obtain ⟨i1, i2, i3, i4⟩ := hi
  refine ⟨h1, by dsimp only; omega, ?_, ?_⟩ <;> dsimp only
  · rintro ⟨hd, hn⟩
    have := h3 (by have := hn t; rwa [upd_same] at this)
    have := i3 ⟨hd, fun u => by
      by_cases e : u = t
      · rw [e]; exact h5
      · have := hn u; rwa [upd_ne _ _ e] at this⟩
    omega
  · intro u
    by_cases e : u = t
    · subst e; rw [upd_same]; exact h4
    · rw [upd_ne _ _ e]; exact i4 u

theorem inv_step {n v : Nat} (s : St n) (e : Ev n) (s' : St n) (hi : Inv v s) (h : step s e = some s') : Inv v s' := by
  have hb := hi.bnd
  have stay : ∀ t x, locOk x → s.pc t ≠ .pdie → Inv v { s with pc := upd s.pc t x } := fun t x h1 h2 =>
    inv_move hi t x s.val s.posts s.waits hb (by omega) (fun _ => by omega) h1 h2
  unfold step at h
  split at h
  · cases h
  cases e with
  | callWait t =>
    dsimp only at h
    split at h <;> cases h
    rename_i hp
    exact stay t _ trivial (by rw [hp]; nofun)
  | callTry t =>
    dsimp only at h
    split at h <;> cases h
    rename_i hp
    exact stay t _ trivial (by rw [hp]; nofun)
  | callPost t =>
    dsimp only at h
    split at h <;> cases h
    rename_i hp
    exact stay t _ trivial (by rw [hp]; nofun)
  | go t =>
    dsimp only at h
    have hl := hi.loc t
    unfold go at h
    cases hp : s.pc t with
    | out => rw [hp] at h; cases h
    | wget =>
      rw [hp] at h; cases h
      refine stay t _ ?_ (by rw [hp]; nofun)
      split
      · trivial
      · exact Nat.pos_of_ne_zero ‹_›
    | tget =>
      rw [hp] at h; cases h
      refine stay t _ ?_ (by rw [hp]; nofun)
      split
      · trivial
      · exact Nat.pos_of_ne_zero ‹_›
    | wcas x =>
      rw [hp] at h hl
      have hx : 0 < x := hl
      dsimp only at h
      have hd := dec32_pos hx
      split at h <;> cases h
      · exact inv_move hi t _ _ _ _ (by omega) (by omega) (fun _ => by omega) trivial (by rw [hp]; nofun)
      · exact stay t _ trivial (by rw [hp]; nofun)
    | tcas x =>
      rw [hp] at h hl
      have hx : 0 < x := hl
      dsimp only at h
      have hd := dec32_pos hx
      split at h <;> cases h
      · exact inv_move hi t _ _ _ _ (by omega) (by omega) (fun _ => by omega) trivial (by rw [hp]; nofun)
      · exact stay t _ trivial (by rw [hp]; nofun)
    | padd =>
      rw [hp] at h; cases h
      refine inv_move hi t _ _ _ _ (by omega) (by omega) ?_ ?_ (by rw [hp]; nofun)
      · split
        · intro h; exact absurd rfl h
        · intro _; omega
      · split <;> trivial
    | pdie =>
      rw [hp] at h; cases h
      exact ⟨hi.bnd, hi.le, (fun h => by cases h.1), hi.loc⟩

/-- **C22** for sem.myr: permits are never made up. -/
theorem spin_sem_bounded {n v : Nat} (hv : v < 2 ^ 32) {es : List (Ev n)} {s : St n} (hr : run step (init n v) es = some s) :
    s.waits + s.val ≤ v + s.posts :=
  (run_inv inv_step (s := init n v) ⟨hv, by simp [init], by simp [init], fun _ => trivial⟩ hr).le

/-- **C22** for sem.myr: the value is the initial value plus the posts minus the waits, unless a post passed the maximum. -/
theorem spin_sem_conserved {n v : Nat} (hv : v < 2 ^ 32) {es : List (Ev n)} {s : St n} (hr : run step (init n v) es = some s)
    (hd : s.dead = false) (hn : ∀ t, s.pc t ≠ .pdie) : s.val + s.waits = v + s.posts := by
  have hi : Inv v s := run_inv inv_step (s := init n v) ⟨hv, by simp [init], by simp [init], fun _ => trivial⟩ hr
  have := hi.eq ⟨hd, hn⟩
  omega

example : (run step (init 2 0) [.callWait 0, .go 0, .callPost 1, .go 1, .go 0, .callTry 1, .go 1, .go 0, .go 1, .go 1]).map
    (fun s => (s.pc 0, s.pc 1, s.val, s.waits)) = some (.out, .out, 0, 1) := by decide

end Sem

end Verif.Thread.Spin
