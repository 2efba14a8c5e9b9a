import Verif.Utf.Model

/-!
# Specification: UTF-8 (RFC 3629, section 3) and words

Independent of the code: plain arithmetic on code points.
-/

namespace Verif.Utf

/-- The UTF-8 encoding of a code point, from the table of RFC 3629 (specification,
models no code). -/
def utf8 (c : Nat) : List Byte :=
  if c ≤ 0x7f then [BitVec.ofNat 8 c]
  else if c ≤ 0x7ff then [BitVec.ofNat 8 (0xc0 + c / 64), BitVec.ofNat 8 (0x80 + c % 64)]
  else if c ≤ 0xffff then
    [BitVec.ofNat 8 (0xe0 + c / 4096), BitVec.ofNat 8 (0x80 + c / 64 % 64), BitVec.ofNat 8 (0x80 + c % 64)]
  else
    [BitVec.ofNat 8 (0xf0 + c / 262144), BitVec.ofNat 8 (0x80 + c / 4096 % 64),
      BitVec.ofNat 8 (0x80 + c / 64 % 64), BitVec.ofNat 8 (0x80 + c % 64)]

/-- Encoding of a string of characters (specification). -/
def enc (cs : List Char32) : List Byte := cs.flatMap fun c => utf8 c.toNat

/-- All characters are code points (specification). -/
def CodePoints (cs : List Char32) : Prop := ∀ c ∈ cs, c.toNat < 0x110000

/-- The characters with the byte offsets at which they start (specification). -/
def withStart : Nat → List Char32 → List (Char32 × Nat)
  | _, [] => []
  | off, c :: cs => (c, off) :: withStart (off + (utf8 c.toNat).length) cs

/-- The characters with the byte offsets at which they end (specification). -/
def withEnd : Nat → List Char32 → List (Char32 × Nat)
  | _, [] => []
  | off, c :: cs => (c, off + (utf8 c.toNat).length) :: withEnd (off + (utf8 c.toNat).length) cs

/-- The words of a text: maximal non-empty runs of non-separators (specification;
`cur` is the current word reversed). -/
def wordsAux (sep : Char32 → Bool) : List Char32 → List Char32 → List (List Char32)
  | cur, [] => if cur = [] then [] else [cur.reverse]
  | cur, c :: cs =>
    if sep c then (if cur = [] then wordsAux sep [] cs else cur.reverse :: wordsAux sep [] cs)
    else wordsAux sep (c :: cur) cs

/-- The words of a text (specification). -/
def words (sep : Char32 → Bool) (cs : List Char32) : List (List Char32) := wordsAux sep [] cs

end Verif.Utf
