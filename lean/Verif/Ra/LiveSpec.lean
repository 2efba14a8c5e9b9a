import Verif.Ra.Model

/-!
# What it means for a register to be live

Stated on the instructions and the edges between the blocks; nothing here refers to the analysis.
-/

namespace Verif.Ra

/-- An instruction reads a register: as an operand it uses, implicitly, or to compute an address. -/
def Reads (i : Insn) (r : Nat) : Prop :=
  (∃ k ∈ i.usel, ∃ o, i.args[k - 1]? = some (.reg o) ∧ o.id = r) ∨ r ∈ i.user ∨
    ∃ b x, .mem b x ∈ i.args ∧ ((∃ o, b = some o ∧ o.id = r) ∨ ∃ o, x = some o ∧ o.id = r)

/-- An instruction writes a register. -/
def Writes (i : Insn) (r : Nat) : Prop := (∃ k ∈ i.defl, ∃ o, i.args[k - 1]? = some (.reg o) ∧ o.id = r) ∨ r ∈ i.defr

/-- `c` has the block `b`. -/
def At (c : Code) (b : Nat) (blk : Blk) : Prop := c[b]? = some (some blk)

/-- Some path from instruction `k` of block `b` reads `r` before it writes it. -/
inductive LiveAt (c : Code) (r : Nat) : Nat → Nat → Prop
  | read {b k : Nat} {blk : Blk} {i : Insn} : At c b blk → blk.il[k]? = some i → Reads i r → LiveAt c r b k
  | skip {b k : Nat} {blk : Blk} {i : Insn} : At c b blk → blk.il[k]? = some i → ¬ Writes i r → LiveAt c r b (k + 1) → LiveAt c r b k
  | edge {b k s : Nat} {blk : Blk} : At c b blk → k = blk.il.length → s ∈ blk.succ → LiveAt c r s 0 → LiveAt c r b k

/-- `r` is live when block `b` is left. -/
def LiveOut (c : Code) (r b : Nat) : Prop := ∃ blk s, At c b blk ∧ s ∈ blk.succ ∧ LiveAt c r s 0

/-- Block `b` reads `r` before writing it. -/
def Exposed (c : Code) (r b : Nat) : Prop :=
  ∃ (blk : Blk) (k : Nat) (i : Insn), At c b blk ∧ blk.il[k]? = some i ∧ Reads i r ∧ ∀ (j : Nat) (i' : Insn), j < k → blk.il[j]? = some i' → ¬ Writes i' r

/-- The operands an instruction names exist and addresses with an index have a base. -/
def Insn.Fits (i : Insn) : Prop :=
  (∀ k, k ∈ i.usel ∨ k ∈ i.defl → k - 1 < i.args.length) ∧ ∀ x, .mem none (some x) ∉ i.args

/-- None of the registers is `%esp` or `%ebp`. -/
def Insn.Plain (i : Insn) : Prop :=
  (∀ o, .reg o ∈ i.args → o.fix = false) ∧ ∀ b x, .mem b x ∈ i.args → ∀ o, b = some o → o.fix = false

/-- All instructions are well formed and the successors of all blocks exist. -/
structure Code.Ok (c : Code) : Prop where
  fits : ∀ b blk, At c b blk → ∀ i ∈ blk.il, i.Fits ∧ i.Plain
  succ : ∀ b blk, At c b blk → ∀ s ∈ blk.succ, ∃ blk', At c s blk'

/-- The instruction copies register `a` to register `b`. -/
def Copies (i : Insn) (a b : Nat) : Prop := i.mov = true ∧ ∃ ra rb rest, i.args = .reg ra :: .reg rb :: rest ∧ ra.id = a ∧ rb.id = b

end Verif.Ra
