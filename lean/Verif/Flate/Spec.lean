import Verif.Prelude

/-!
# Specification of DEFLATE, after RFC 1951

Over lists of bits and bytes, without the functions of the model.
-/

namespace Verif.Flate

/-! ## Bits, section 3.1.1 -/

/-- The `n` low bits of a number, least significant first (specification). -/
def lsb : Nat → Nat → List Bool
  | 0, _ => []
  | n + 1, x => decide (x % 2 = 1) :: lsb n (x / 2)

/-- The `n` low bits of a number, most significant first (specification). -/
def msb : Nat → Nat → List Bool
  | 0, _ => []
  | n + 1, x => x.testBit n :: msb n x

/-- The bits of a string of bytes (specification). -/
def bitsOf (S : List Byte) : List Bool := S.flatMap fun b => lsb 8 b.toNat

/-! ## Canonical Huffman codes, section 3.2.2 -/

/-- The number of codes of length `l` (specification). -/
def blCount (lens : List Nat) (l : Nat) : Nat := if l = 0 then 0 else lens.count l

/-- The smallest code of length `l` (specification, `next_code` of the RFC). -/
def nextCode (lens : List Nat) : Nat → Nat
  | 0 => 0
  | l + 1 => (nextCode lens l + blCount lens l) * 2

/-- The code of symbol `s`, which has `l` bits (specification): codes of the same length are
numbered in the order of the symbols. -/
def codeVal (lens : List Nat) (s l : Nat) : Nat := nextCode lens l + (lens.take s).count l

/-- `b` is the bit string of symbol `s` (specification). -/
def Code (lens : List Nat) (s : Nat) (b : List Bool) : Prop :=
  ∃ l, lens[s]? = some l ∧ l ≠ 0 ∧ b = msb l (codeVal lens s l)

/-- The lengths are those of a prefix code, complete or not: none is over 15, and Kraft's
inequality holds (specification). -/
def Valid (lens : List Nat) : Prop :=
  (∀ l ∈ lens, l ≤ 15) ∧ (lens.map fun l => if l = 0 then 0 else 2 ^ (15 - l)).sum ≤ 2 ^ 15

/-! ## Compressed data, section 3.2.5 -/

/-- Starting values of consecutive ranges of the sizes `2 ^ e` (specification). -/
def ranges : Nat → List Nat → List (Nat × Nat)
  | _, [] => []
  | b, e :: es => (b, e) :: ranges (b + 2 ^ e) es

/-- First length and number of extra bits of the symbols 257, 258, … (specification). -/
def lenTable : List (Nat × Nat) :=
  ranges 3 [0, 0, 0, 0, 0, 0, 0, 0, 1, 1, 1, 1, 2, 2, 2, 2, 3, 3, 3, 3, 4, 4, 4, 4, 5, 5, 5, 5] ++ [(258, 0)]

/-- First distance and number of extra bits of the distance symbols (specification). -/
def dstTable : List (Nat × Nat) :=
  ranges 1 [0, 0, 0, 0, 1, 1, 2, 2, 3, 3, 4, 4, 5, 5, 6, 6, 7, 7, 8, 8, 9, 9, 10, 10, 11, 11, 12, 12, 13, 13]

/-- The output after repeating `n` bytes from `d` bytes back; they may overlap what is
appended (specification). -/
def copyBack (d : Nat) : Nat → List Byte → List Byte
  | 0, out => out
  | n + 1, out =>
    match out[out.length - d]? with
    | some b => copyBack d n (out ++ [b])
    | none => out

/-- The bits of compressed data with the given code lengths, the output before and the output
after them (specification). -/
inductive Items (ll dl : List Nat) : List Byte → List Bool → List Byte → Prop
  | stop {out b} : Code ll 256 b → Items ll dl out b out
  | lit {out b c bs out'} : Code ll (BitVec.toNat c) b → Items ll dl (out ++ [c]) bs out' → Items ll dl out (b ++ bs) out'
  | copy {out b d bs out' i j base e x base' e' y} :
    lenTable[i]? = some (base, e) → dstTable[j]? = some (base', e') → x < 2 ^ e → y < 2 ^ e' →
    Code ll (257 + i) b → Code dl j d → base' + y ≤ out.length →
    Items ll dl (copyBack (base' + y) (base + x) out) bs out' →
    Items ll dl out (b ++ lsb e x ++ d ++ lsb e' y ++ bs) out'

/-! ## Dynamic codes, section 3.2.7 -/

/-- The order in which the lengths of the code length code are sent (specification). -/
def clOrder : List Nat := [16, 17, 18, 0, 8, 7, 9, 6, 10, 5, 11, 4, 12, 3, 13, 2, 14, 1, 15]

/-- The bits of `tot` code lengths: from those before to all of them (specification). -/
inductive Lens (cl : List Nat) (tot : Nat) : List Nat → List Bool → List Nat → Prop
  | done {pre} : pre.length = tot → Lens cl tot pre [] pre
  | len {pre s b bs full} : s < 16 → Code cl s b → Lens cl tot (pre ++ [s]) bs full → Lens cl tot pre (b ++ bs) full
  | copy {pre v n b bs full} : n < 4 → Code cl 16 b → Lens cl tot (pre ++ [v] ++ List.replicate (3 + n) v) bs full →
    Lens cl tot (pre ++ [v]) (b ++ lsb 2 n ++ bs) full
  | zeros {pre n b bs full} : n < 8 → Code cl 17 b → Lens cl tot (pre ++ List.replicate (3 + n) 0) bs full →
    Lens cl tot pre (b ++ lsb 3 n ++ bs) full
  | zeros' {pre n b bs full} : n < 128 → Code cl 18 b → Lens cl tot (pre ++ List.replicate (11 + n) 0) bs full →
    Lens cl tot pre (b ++ lsb 7 n ++ bs) full

/-! ## Blocks, section 3.2.3 -/

/-- Code lengths of the fixed code for literals and lengths, section 3.2.6 (specification). -/
def fixedLL : List Nat :=
  (List.range 288).map fun s => if s < 144 then 8 else if s < 256 then 9 else if s < 280 then 7 else 8

/-- Code lengths of the fixed code for distances (specification). -/
def fixedDL : List Nat := (List.range 32).map fun _ => 5

/-- A block of the given type whose header ends at bit `p` of the stream: the output before,
the bits after the header, the output after (specification).  Unless `strict`, the code lengths
need not be those of prefix codes. -/
inductive Block (strict : Prop) (p : Nat) : Nat → List Byte → List Bool → List Byte → Prop
  | stored {out pad data} : pad.length = (8 - p % 8) % 8 → data.length < 2 ^ 16 →
    Block strict p 0 out (pad ++ lsb 16 data.length ++ lsb 16 (2 ^ 16 - 1 - data.length) ++ bitsOf data) (out ++ data)
  | fixed {out bs out'} : Items fixedLL fixedDL out bs out' → Block strict p 1 out bs out'
  | dynamic {out out' : List Byte} {ll dl cl : List Nat} {ncode : Nat} {lb bs} :
    257 ≤ ll.length → ll.length ≤ 286 → 1 ≤ dl.length → dl.length ≤ 30 → 4 ≤ ncode → ncode ≤ 19 →
    cl.length = 19 → (∀ l ∈ cl, l < 8) → (∀ k ∈ clOrder.drop ncode, cl[k]? = some 0) →
    (strict → Valid cl ∧ Valid ll ∧ Valid dl) → ll[256]? ≠ some 0 →
    Lens cl (ll.length + dl.length) [] lb (ll ++ dl) →
    Items ll dl out bs out' →
    Block strict p 2 out (lsb 5 (ll.length - 257) ++ lsb 5 (dl.length - 1) ++ lsb 4 (ncode - 4) ++
      (clOrder.take ncode).flatMap (fun k => lsb 3 (cl.getD k 0)) ++ lb ++ bs) out'

/-- A stream of blocks from bit `p` on (specification). -/
inductive Stream (strict : Prop) : Nat → List Byte → List Bool → List Byte → Prop
  | last {p ty out bs out'} : Block strict (p + 3) ty out bs out' → Stream strict p out (true :: lsb 2 ty ++ bs) out'
  | more {p ty out bs out₁ rest out'} : Block strict (p + 3) ty out bs out₁ → Stream strict (p + 3 + bs.length) out₁ rest out' →
    Stream strict p out (false :: lsb 2 ty ++ bs ++ rest) out'

/-- Blocks none of which is marked as the last one, from bit `p` on (specification). -/
inductive Blocks (strict : Prop) : Nat → List Byte → List Bool → List Byte → Prop
  | none {p out} : Blocks strict p out [] out
  | more {p ty out bs out₁ rest out'} : Block strict (p + 3) ty out bs out₁ → Blocks strict (p + 3 + bs.length) out₁ rest out' →
    Blocks strict p out (false :: lsb 2 ty ++ bs ++ rest) out'

/-- `S` is a DEFLATE stream for `out`, with anything after it (specification). -/
def Deflates (S out : List Byte) : Prop := ∃ bs rest, bitsOf S = bs ++ rest ∧ Stream True 0 [] bs out

end Verif.Flate
