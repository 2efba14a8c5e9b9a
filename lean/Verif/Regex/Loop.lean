import Verif.Regex.Groups

/-! # The code of `(a*b*)*` on the empty string -/

namespace Verif.Regex

/-- The program of `(a*b*)*`. -/
def loopP : List Inst :=
  [.lbra 0, .fork 2 11, .lbra 1, .fork 4 6, .byte 97#8, .jmp 3, .fork 7 9, .byte 98#8, .jmp 6, .rbra 1, .jmp 1, .rbra 0, .mtch 0]

/-- One step that does not consume. -/
theorem thread_cont {code : List (BitVec 64)} {str : List Byte} {i : Nat} {start : Int} {fuel : Nat} {cur : Int} {t t' : Thr} {q : List Thr}
    {n : Int} (h : step code str i t cur = .ok (.cont t' none)) :
    thread code str i start (fuel + 1) cur t q n = thread code str i start fuel start t' q n := by
  rw [thread, h]; rfl

/-- One step with a new thread. -/
theorem thread_new {code : List (BitVec 64)} {str : List Byte} {i : Nat} {start : Int} {fuel : Nat} {cur : Int} {t t' u : Thr} {q : List Thr}
    {n : Int} (h : step code str i t cur = .ok (.cont t' (some u))) :
    thread code str i start (fuel + 1) cur t q n = thread code str i start fuel start t' (u :: q) (n + 1) := by
  rw [thread, h]; rfl

/-- The thread dies. -/
theorem thread_dead {code : List (BitVec 64)} {str : List Byte} {i : Nat} {start : Int} {fuel : Nat} {cur : Int} {t : Thr} {q : List Thr}
    {n : Int} (h : step code str i t cur = .ok .dead) :
    thread code str i start (fuel + 1) cur t q n = .ok (.dead, t, q, n - 1) := by
  rw [thread, h]; rfl

/-- A thread at 6 makes one at 9. -/
theorem thread6 (fuel : Nat) (mg : Groups) (q : List Thr) (n : Int) :
    thread (loopP.map encinst) [] 0 6 fuel (-1) ⟨6, mg⟩ q n = .spin ∨
    ∃ t n', thread (loopP.map encinst) [] 0 6 fuel (-1) ⟨6, mg⟩ q n = .ok (.dead, t, ⟨9, mg⟩ :: q, n') := by
  match fuel with
  | 0 => left; rfl
  | 1 => left; rw [thread_new (step_fork (l := 7) (r := 9) (by rfl) (by decide) (by decide))]; rfl
  | fuel + 2 =>
    right
    rw [thread_new (step_fork (l := 7) (r := 9) (by rfl) (by decide) (by decide)), thread_dead (step_byte (b := 98#8) (by rfl))]
    exact ⟨_, _, rfl⟩

/-- A thread at 9 makes one at 6 and one at 11. -/
theorem thread9 (fuel : Nat) (mg : Groups) (hl : mg.length = 16) (q : List Thr) (n : Int) :
    thread (loopP.map encinst) [] 0 9 fuel (-1) ⟨9, mg⟩ q n = .spin ∨
    ∃ t n' mg' u, thread (loopP.map encinst) [] 0 9 fuel (-1) ⟨9, mg⟩ q n = .ok (.dead, t, ⟨6, mg'⟩ :: u :: q, n') ∧ mg'.length = 16 := by
  have e1 := fun f => thread_cont (start := 9) (fuel := f) (q := q) (n := n)
    (step_rbra (P := loopP) (s := []) (i := 0) (cur := -1) (t := ⟨9, mg⟩) (m := 1) (by rfl) (by decide) hl)
  have e2 := fun f => thread_cont (start := 9) (fuel := f) (q := q) (n := n)
    (step_jmp (P := loopP) (s := []) (i := 0) (cur := 9) (t := ⟨9 + 1, closed mg 1 0⟩) (d := 1) (by rfl) (by decide))
  have e3 := fun f => thread_new (start := 9) (fuel := f) (q := q) (n := n)
    (step_fork (P := loopP) (s := []) (i := 0) (cur := 9) (t := ⟨1, closed mg 1 0⟩) (l := 2) (r := 11) (by rfl) (by decide) (by decide))
  have e4 := fun f => thread_cont (start := 9) (fuel := f) (q := ⟨11, closed mg 1 0⟩ :: q) (n := n + 1)
    (step_lbra (P := loopP) (s := []) (i := 0) (cur := 9) (t := ⟨2, closed mg 1 0⟩) (m := 1) (by rfl) (by decide) (by simp [closed, hl]))
  have e5 := fun f => thread_new (start := 9) (fuel := f) (q := ⟨11, closed mg 1 0⟩ :: q) (n := n + 1)
    (step_fork (P := loopP) (s := []) (i := 0) (cur := 9) (t := ⟨2 + 1, opened (closed mg 1 0) 1 0⟩) (l := 4) (r := 6) (by rfl) (by decide) (by decide))
  match fuel with
  | 0 => left; rfl
  | 1 => left; rw [e1]; rfl
  | 2 => left; rw [e1, e2]; rfl
  | 3 => left; rw [e1, e2, e3]; rfl
  | 4 => left; rw [e1, e2, e3, e4]; rfl
  | 5 => left; rw [e1, e2, e3, e4, e5]; rfl
  | fuel + 6 =>
    right
    rw [e1, e2, e3, e4, e5, thread_dead (step_byte (b := 97#8) (by rfl))]
    exact ⟨_, _, _, _, rfl, by simp [closed, opened, hl]⟩

/-- With a thread at 6 the queue never empties. -/
theorem inner_loop (whole : Bool) (fuel : Nat) : ∀ (mg : Groups) (q e : List Thr) (tl : Tail) (b : Option Thr) (n : Int), mg.length = 16 →
    inner (loopP.map encinst) [] whole fuel (VM.mk (⟨6, mg⟩ :: q) e tl [] b n 0) = .spin := by
  induction fuel using Nat.strongRecOn with
  | _ fuel ih =>
    intro mg q e tl b n hl
    match fuel with
    | 0 => rfl
    | 1 => rfl
    | fuel + 2 =>
      rw [inner]
      simp only
      rcases thread6 (fuel + 1) mg q n with h | ⟨t, n', h⟩
      · rw [show ((6 : Nat) : Int) = 6 from rfl, h]; rfl
      · rw [show ((6 : Nat) : Int) = 6 from rfl, h]
        simp only [Res.bind_ok, List.not_mem_nil, decide_false, Bool.false_eq_true, false_and, if_false]
        rw [inner]
        simp only
        rcases thread9 fuel mg hl q n' with h | ⟨t, n'', mg', u, h, hl'⟩
        · rw [show ((9 : Nat) : Int) = 9 from rfl, h]; rfl
        · rw [show ((9 : Nat) : Int) = 9 from rfl, h]
          simp only [Res.bind_ok, List.not_mem_nil, decide_false, Bool.false_eq_true, false_and, if_false]
          exact ih fuel (by omega) _ _ _ _ _ _ hl'

/-- The first thread leaves one at 6. -/
theorem thread0 (fuel : Nat) (n : Int) :
    thread (loopP.map encinst) [] 0 0 fuel (-1) ⟨0, Groups.none⟩ [] n = .spin ∨
    ∃ t n' mg' q, thread (loopP.map encinst) [] 0 0 fuel (-1) ⟨0, Groups.none⟩ [] n = .ok (.dead, t, ⟨6, mg'⟩ :: q, n') ∧ mg'.length = 16 := by
  have e1 := fun f => thread_cont (start := 0) (fuel := f) (q := []) (n := n)
    (step_lbra (P := loopP) (s := []) (i := 0) (cur := -1) (t := ⟨0, Groups.none⟩) (m := 0) (by rfl) (by decide) (by rfl))
  have e3 := fun f => thread_new (start := 0) (fuel := f) (q := []) (n := n)
    (step_fork (P := loopP) (s := []) (i := 0) (cur := 0) (t := ⟨0 + 1, opened Groups.none 0 0⟩) (l := 2) (r := 11) (by rfl) (by decide) (by decide))
  have e4 := fun f => thread_cont (start := 0) (fuel := f) (q := [⟨11, opened Groups.none 0 0⟩]) (n := n + 1)
    (step_lbra (P := loopP) (s := []) (i := 0) (cur := 0) (t := ⟨2, opened Groups.none 0 0⟩) (m := 1) (by rfl) (by decide) (by rfl))
  have e5 := fun f => thread_new (start := 0) (fuel := f) (q := [⟨11, opened Groups.none 0 0⟩]) (n := n + 1)
    (step_fork (P := loopP) (s := []) (i := 0) (cur := 0) (t := ⟨2 + 1, opened (opened Groups.none 0 0) 1 0⟩) (l := 4) (r := 6) (by rfl) (by decide) (by decide))
  match fuel with
  | 0 => left; rfl
  | 1 => left; rw [e1]; rfl
  | 2 => left; rw [e1, e3]; rfl
  | 3 => left; rw [e1, e3, e4]; rfl
  | 4 => left; rw [e1, e3, e4, e5]; rfl
  | fuel + 5 =>
    right
    rw [e1, e3, e4, e5, thread_dead (step_byte (b := 97#8) (by rfl))]
    exact ⟨_, _, _, _, rfl, by rfl⟩

/-- The machine never stops. -/
theorem run_loop (whole : Bool) (fuel nm : Nat) (hn : nm ≤ 16) : run { code := loopP.map encinst, nmatch := nm } fuel .fresh [] whole = .spin := by
  unfold run
  rw [if_neg (by simp; omega)]
  match fuel with
  | 0 => rfl
  | 1 => rfl
  | fuel + 2 =>
    rw [outer, if_pos (by decide), inner]
    simp only [Obj.fresh]
    rcases thread0 fuel (0 + 1) with h | ⟨t, n', mg', q, h, hl⟩
    · rw [show (List.replicate 16 (-1, -1) : Groups) = Groups.none from rfl, show ((0 : Nat) : Int) = 0 from rfl, h]; rfl
    · rw [show (List.replicate 16 (-1, -1) : Groups) = Groups.none from rfl, show ((0 : Nat) : Int) = 0 from rfl, h]
      simp only [Res.bind_ok, List.not_mem_nil, decide_false, Bool.false_eq_true, false_and, if_false]
      rw [inner_loop _ _ _ _ _ _ _ _ hl]
      rfl

end Verif.Regex
