import Verif.Aes.Table
import Mathlib.Tactic.IntervalCases

/-!
# The words of the bit-sliced cipher, bit by bit
-/

namespace Verif.Aes

/-- The bits at one position of the eight words, as a byte. -/
def Oct.at (q : Q) (p : Nat) : Byte :=
  BitVec.ofBoolListLE [q.q0.getLsbD p, q.q1.getLsbD p, q.q2.getLsbD p, q.q3.getLsbD p,
    q.q4.getLsbD p, q.q5.getLsbD p, q.q6.getLsbD p, q.q7.getLsbD p]

theorem bits_inj {a b : Byte} (h : bits a = bits b) : a = b := by
  simp only [bits, Oct.mk.injEq] at h
  obtain ⟨h0, h1, h2, h3, h4, h5, h6, h7⟩ := h
  apply BitVec.eq_of_getLsbD_eq
  intro i hi
  interval_cases i <;> assumption

theorem bits_at (q : Q) (p : Nat) : bits (q.at p) = q.map (·.getLsbD p) := by
  simp [bits, Oct.at, Oct.map, BitVec.ofBoolListLE]

/-! ## The S-box -/

theorem get_map {α β : Type} (f : α → β) (d : α) : ∀ (e : Env α) (v : Var),
    Env.get (f d) (e.map (fun x => (x.1, f x.2))) v = f (e.get d v)
  | [], _ => rfl
  | (w, a) :: r, v => by
    rw [List.map_cons, Env.get, Env.get, get_map f d r v]
    split <;> rfl

/-- What keeps the operations. -/
structure Hom {α β : Type} (O : Ops α) (P : Ops β) (f : α → β) : Prop where
  xor : ∀ a b, f (O.xor a b) = P.xor (f a) (f b)
  and : ∀ a b, f (O.and a b) = P.and (f a) (f b)
  not : ∀ a, f (O.not a) = P.not (f a)

theorem exec_map {α β : Type} {O : Ops α} {P : Ops β} {f : α → β} (h : Hom O P f) (d : α) : ∀ (gs : List Gate) (e : Env α),
    (gs.foldl (exec O d) e).map (fun x => (x.1, f x.2)) = gs.foldl (exec P (f d)) (e.map (fun x => (x.1, f x.2)))
  | [], _ => rfl
  | g :: gs, e => by
    rw [List.foldl_cons, List.foldl_cons, exec_map h d gs]
    congr 1
    cases g <;> simp only [exec, List.map_cons, get_map, h.xor, h.and, h.not]

theorem sboxWith_map {α β : Type} {O : Ops α} {P : Ops β} {f : α → β} (h : Hom O P f) (d : α) (q : Oct α) :
    (sboxWith O d q).map f = sboxWith P (f d) (q.map f) := by
  unfold sboxWith
  have he := exec_map h d gates [(x 0, q.q7), (x 1, q.q6), (x 2, q.q5), (x 3, q.q4), (x 4, q.q3), (x 5, q.q2), (x 6, q.q1), (x 7, q.q0)]
  simp only [List.map_cons, List.map_nil] at he
  simp only [Oct.map, ← he, get_map]

theorem circuit (b : Byte) : sboxWith bools false (bits b) = bits (Spec.sub b) := circuit_table b.toFin

/-- `sbox` works on every position. -/
theorem sbox_at (q : Q) {p : Nat} (hp : p < 64) : (sbox q).at p = Spec.sub (q.at p) := by
  apply bits_inj
  rw [← circuit, bits_at, bits_at]
  have h : Hom words bools (fun x : BitVec 64 => x.getLsbD p) :=
    ⟨fun a b => BitVec.getLsbD_xor, fun a b => BitVec.getLsbD_and, fun a => by simp [words, bools, hp]⟩
  have := sboxWith_map h 0 q
  rw [show BitVec.getLsbD (0 : BitVec 64) p = false from BitVec.getLsbD_zero] at this
  exact this

/-- The affine transformation of `isub` on bits. -/
theorem invaff_at (q : Q) {p : Nat} (hp : p < 64) :
    (invaff q).at p = (q.at p).rotateLeft 1 ^^^ (q.at p).rotateLeft 3 ^^^ (q.at p).rotateLeft 6 ^^^ 0x05 := by
  have key : ∀ b : Fin 256, bits ((BitVec.ofFin b : Byte).rotateLeft 1 ^^^ (BitVec.ofFin b : Byte).rotateLeft 3 ^^^ (BitVec.ofFin b : Byte).rotateLeft 6 ^^^ 0x05)
      = (let o := bits (BitVec.ofFin b)
        ⟨o.q2 ^^ !o.q5 ^^ o.q7, o.q3 ^^ !o.q6 ^^ !o.q0, o.q4 ^^ o.q7 ^^ !o.q1, !o.q5 ^^ !o.q0 ^^ o.q2,
          !o.q6 ^^ !o.q1 ^^ o.q3, o.q7 ^^ o.q2 ^^ o.q4, !o.q0 ^^ o.q3 ^^ !o.q5, !o.q1 ^^ o.q4 ^^ !o.q6⟩) := by decide +kernel
  apply bits_inj
  rw [show q.at p = BitVec.ofFin (q.at p).toFin from rfl, key]
  rw [show BitVec.ofFin (q.at p).toFin = q.at p from rfl, bits_at, bits_at]
  simp [invaff, Oct.map, hp]

/-- `invsbox` works on every position. -/
theorem invsbox_at (q : Q) {p : Nat} (hp : p < 64) : (invsbox q).at p = Spec.isub (q.at p) := by
  rw [invsbox, invaff_at _ hp, sbox_at _ hp, invaff_at _ hp]
  exact inv_affine ((q.at p).rotateLeft 1 ^^^ (q.at p).rotateLeft 3 ^^^ (q.at p).rotateLeft 6 ^^^ 0x05).toFin

end Verif.Aes
