import Verif.Aes.Model
import Verif.Aes.Spec

/-! # The circuit of the S-box, for all bytes -/

namespace Verif.Aes

/-- The bits of a byte. -/
def bits (b : Byte) : Oct Bool :=
  ⟨b.getLsbD 0, b.getLsbD 1, b.getLsbD 2, b.getLsbD 3, b.getLsbD 4, b.getLsbD 5, b.getLsbD 6, b.getLsbD 7⟩

/-- Single bits. -/
def bools : Ops Bool := ⟨xor, and, not⟩

/-- The circuit on the bits of each byte gives the bits of its image. -/
theorem circuit_table : ∀ b : Fin 256, sboxWith bools false (bits (BitVec.ofFin b)) = bits (Spec.sub (BitVec.ofFin b)) := by
  decide +kernel

theorem inv_affine : ∀ b : Fin 256, (let x : Byte := Spec.sub (BitVec.ofFin b)
    x.rotateLeft 1 ^^^ x.rotateLeft 3 ^^^ x.rotateLeft 6 ^^^ 0x05) = Spec.inv (BitVec.ofFin b) := by decide +kernel

end Verif.Aes
