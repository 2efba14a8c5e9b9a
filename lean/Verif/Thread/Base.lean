import Verif.Prelude

/-!
# Threads

A program of `n` threads is a state with a program counter per thread. A schedule is a list of events; each event is
one atomic step of one thread, a call made by a thread, or a wake-up from a futex for no reason. Memory is
sequentially consistent: the words shared by the threads are accessed by `xget`, `xadd`, `xcas`, `xchg` (locked
instructions, lib/thread/atomic-impl+x64.s), or by single aligned loads and stores.

The futex (lib/thread/futex+linux.myr:16-65): waiting compares the word and parks the thread in one step; waking one
thread wakes some parked thread if there is one. A parked thread may wake at any time.
-/

namespace Verif.Thread

/-- Thread `t` goes to `x`. -/
def upd {n : Nat} {α : Type} (f : Fin n → α) (t : Fin n) (x : α) : Fin n → α := fun u => if u = t then x else f u

@[simp] theorem upd_same {n : Nat} {α : Type} (f : Fin n → α) (t : Fin n) (x : α) : upd f t x t = x := by simp [upd]

theorem upd_ne {n : Nat} {α : Type} (f : Fin n → α) {t u : Fin n} (x : α) (h : u ≠ t) : upd f t x u = f u := by simp [upd, h]

/-- A schedule: all its events can happen in turn. -/
def run {σ ε : Type} (step : σ → ε → Option σ) : σ → List ε → Option σ
  | s, [] => some s
  | s, e :: es => match step s e with
    | none => none
    | some s' => run step s' es

/-- What holds at the start and is kept by each step holds always. -/
theorem run_inv {σ ε : Type} {step : σ → ε → Option σ} {I : σ → Prop} (h : ∀ s e s', I s → step s e = some s' → I s') :
    ∀ {es : List ε} {s s' : σ}, I s → run step s es = some s' → I s'
  | [], s, s', hs, hr => by cases hr; exact hs
  | e :: es, s, s', hs, hr => by
    rw [run] at hr
    cases he : step s e with
    | none => rw [he] at hr; cases hr
    | some s1 => rw [he] at hr; exact run_inv h (h s e s1 hs he) hr

theorem run_append {σ ε : Type} {step : σ → ε → Option σ} : ∀ {es : List ε} {s s' : σ} {es' : List ε}, run step s es = some s' →
    run step s (es ++ es') = run step s' es'
  | [], s, s', es', h => by cases h; rfl
  | e :: es, s, s', es', h => by
    rw [run] at h
    rw [List.cons_append, run]
    cases he : step s e with
    | none => rw [he] at h; cases h
    | some s1 => rw [he] at h; exact run_append h

/-- `v - 1` for a 32-bit `v`. -/
def dec32 (v : Nat) : Nat := if v = 0 then 4294967295 else v - 1

theorem dec32_pos {v : Nat} (h0 : 0 < v) : dec32 v = v - 1 := by unfold dec32; rw [if_neg (by omega)]

theorem dec32_zero : dec32 0 = 2 ^ 32 - 1 := by decide

theorem dec32_lt {v : Nat} (h : v < 2 ^ 32) : dec32 v < 2 ^ 32 := by unfold dec32; split <;> omega

/-- The number of threads in a set of places. -/
def cnt {n : Nat} {α : Type} (P : α → Bool) (f : Fin n → α) : Nat := (List.finRange n).countP fun t => P (f t)

theorem countP_upd {n : Nat} {α : Type} (P : α → Bool) (f : Fin n → α) (t : Fin n) (x : α) : ∀ l : List (Fin n), l.Nodup →
    (l.countP fun u => P (upd f t x u)) + (if t ∈ l ∧ P (f t) = true then 1 else 0) =
      (l.countP fun u => P (f u)) + (if t ∈ l ∧ P x = true then 1 else 0)
  | [], _ => by simp
  | a :: l, h => by
    have ih := countP_upd P f t x l (List.nodup_cons.mp h).2
    rw [List.countP_cons, List.countP_cons]
    by_cases ha : a = t
    · subst ha
      have hn := (List.nodup_cons.mp h).1
      simp only [hn, false_and, if_false, Nat.add_zero] at ih
      simp only [upd_same, List.mem_cons, true_or, true_and]
      omega
    · have : t ∈ a :: l ↔ t ∈ l := by simp [Ne.symm ha]
      rw [upd_ne _ _ ha]
      simp only [this]
      omega

/-- Moving one thread. -/
theorem cnt_upd {n : Nat} {α : Type} (P : α → Bool) (f : Fin n → α) (t : Fin n) (x : α) :
    cnt P (upd f t x) + (if P (f t) = true then 1 else 0) = cnt P f + (if P x = true then 1 else 0) := by
  have := countP_upd P f t x (List.finRange n) (List.nodup_finRange n)
  simpa [cnt, List.mem_finRange] using this

theorem cnt_pos {n : Nat} {α : Type} {P : α → Bool} {f : Fin n → α} : 0 < cnt P f ↔ ∃ t, P (f t) = true := by
  simp [cnt, List.countP_pos_iff, List.mem_finRange]

theorem cnt_zero {n : Nat} {α : Type} {P : α → Bool} {f : Fin n → α} (h : ∀ t, P (f t) = false) : cnt P f = 0 := by
  simp [cnt, h]

theorem cnt_le {n : Nat} {α : Type} (P : α → Bool) (f : Fin n → α) : cnt P f ≤ n := by
  have := List.countP_le_length (p := fun t => P (f t)) (l := List.finRange n)
  simpa [cnt] using this

/-- The sum over all threads. -/
def tot {n : Nat} {α : Type} (g : α → Nat) (f : Fin n → α) : Nat := ((List.finRange n).map fun t => g (f t)).sum

theorem sum_upd {n : Nat} {α : Type} (g : α → Nat) (f : Fin n → α) (t : Fin n) (x : α) : ∀ l : List (Fin n), l.Nodup →
    (l.map fun u => g (upd f t x u)).sum + (if t ∈ l then g (f t) else 0) = (l.map fun u => g (f u)).sum + (if t ∈ l then g x else 0)
  | [], _ => by simp
  | a :: l, h => by
    have ih := sum_upd g f t x l (List.nodup_cons.mp h).2
    rw [List.map_cons, List.map_cons, List.sum_cons, List.sum_cons]
    by_cases ha : a = t
    · subst ha
      have hn := (List.nodup_cons.mp h).1
      simp only [hn, if_false, Nat.add_zero] at ih
      simp only [upd_same, List.mem_cons, true_or, if_true]
      omega
    · have : t ∈ a :: l ↔ t ∈ l := by simp [Ne.symm ha]
      rw [upd_ne _ _ ha]
      simp only [this]
      omega

/-- Changing one thread. -/
theorem tot_upd {n : Nat} {α : Type} (g : α → Nat) (f : Fin n → α) (t : Fin n) (x : α) :
    tot g (upd f t x) + g (f t) = tot g f + g x := by
  have := sum_upd g f t x (List.finRange n) (List.nodup_finRange n)
  simpa [tot, List.mem_finRange] using this

theorem le_sum {n : Nat} {α : Type} (g : α → Nat) (f : Fin n → α) (t : Fin n) : ∀ l : List (Fin n), t ∈ l → g (f t) ≤ (l.map fun u => g (f u)).sum
  | [], h => by cases h
  | a :: l, h => by
    rw [List.map_cons, List.sum_cons]
    rcases List.mem_cons.mp h with h | h
    · subst h; omega
    · have := le_sum g f t l h
      omega

theorem le_tot {n : Nat} {α : Type} (g : α → Nat) (f : Fin n → α) (t : Fin n) : g (f t) ≤ tot g f :=
  le_sum g f t _ (List.mem_finRange t)

theorem tot_zero {n : Nat} {α : Type} {g : α → Nat} {f : Fin n → α} (h : ∀ t, g (f t) = 0) : tot g f = 0 := by
  unfold tot
  simp only [h]
  induction List.finRange n with
  | nil => rfl
  | cons a l ih => simpa using ih

/-- Two different threads. -/
theorem add_le_tot {n : Nat} {α : Type} (g : α → Nat) (f : Fin n → α) {t u : Fin n} (h : t ≠ u) (x : α) (hx : g x = 0) : g (f t) + g (f u) ≤ tot g f := by
  have h1 := tot_upd g f t x
  have h2 := le_tot g (upd f t x) u
  rw [upd_ne _ _ h.symm] at h2
  omega

end Verif.Thread
