import Verif.Prelude

/-!
# Model of /repo/lib/std/utf.myr and the iterators of /repo/lib/std/striter.myr

`char` is a 32-bit word compared without sign (parse/type.c:402-412 does not list
`Tychar` among the signed types); `Badchar` is -1.
-/

namespace Verif.Utf

/-- `char`. -/
abbrev Char32 := BitVec 32

/-- `Badchar`, utf.myr:7. -/
def Badchar : Char32 := 0xffffffff#32

/-- `charlen`, utf.myr:21-33. -/
def charlen (c : Char32) : Nat :=
  if c < 0x80#32 then 1
  else if c < 0x800#32 then 2
  else if c < 0x10000#32 then 3
  else if c < 0x200000#32 then 4
  else 1

/-- The loop of `encode`, utf.myr:50-53: writes `buf[i]` for `i` down to 1 and
returns the buffer and the shifted character. -/
def encLoop : Nat → List Byte → Char32 → Res (List Byte × Char32)
  | 0, buf, c => .ok (buf, c)
  | i + 1, buf, c => do
    let buf ← wrChk buf (i + 1) (((c &&& 0x3f#32) ||| 0x80#32).setWidth 8)
    encLoop i buf (c >>> 6)

/-- `mark` of `encode`, utf.myr:44-48. -/
def mark (len : Nat) : Char32 :=
  if len = 1 then 0 else ((1#32 <<< (8 - len)) - 1#32) ^^^ 0xff#32

/-- `encode`, utf.myr:35-57: the returned count and the buffer afterwards. -/
def encode (buf : List Byte) (c : Char32) : Res (Int × List Byte) :=
  let len := charlen c
  if buf.length < len then .ok (-1, buf)
  else do
    let p ← encLoop (len - 1) buf c
    let buf ← wrChk p.1 0 ((p.2 ||| mark len).setWidth 8)
    pure ((len : Int), buf)

/-- The loop of `charstep`, utf.myr:131-134: reads `str[i]`, …, `str[i + n - 1]`. -/
def decLoop (str : List Byte) : Nat → Nat → BitVec 32 → Res (BitVec 32)
  | 0, _, chr => .ok chr
  | n + 1, i, chr => do
    let b ← rdChk str i
    decLoop str n (i + 1) ((chr <<< 6) ||| (b.setWidth 32 &&& 0x3f#32))

/-- The length announced by the first byte, utf.myr:110-122; 0 for the branch that
returns `Badchar` at once. -/
def leadLen (c : Byte) : Nat :=
  if c &&& 0x80#8 = 0#8 then 1
  else if c &&& 0xe0#8 = 0xc0#8 then 2
  else if c &&& 0xf0#8 = 0xe0#8 then 3
  else if c &&& 0xf8#8 = 0xf0#8 then 4
  else 0

/-- `charstep`, utf.myr:97-137. -/
def charstep (str : List Byte) : Res (Char32 × List Byte) :=
  if str.length = 0 then .ok (Badchar, str)
  else do
    let c ← rdChk str 0
    let len := leadLen c
    if len = 0 ∨ len > str.length then do
      let r ← slice str 1 str.length
      pure (Badchar, r)
    else do
      let mask := (1#32 <<< (8 - len)) - 1#32
      let chr ← decLoop str (len - 1) 1 (c.setWidth 32 &&& mask)
      let r ← slice str len str.length
      pure (chr, r)

/-- `decode`, utf.myr:59-65. -/
def decode (buf : List Byte) : Res Char32 := do
  let p ← charstep buf
  pure p.1

/-- A `for c : bychar(s)` loop collecting the characters, striter.myr:52-67;
`fuel` bounds the number of rounds. -/
def bychar : Nat → List Byte → Res (List Char32)
  | 0, _ => .spin
  | fuel + 1, rest =>
    if rest.length = 0 then .ok []
    else do
      let p ← charstep rest
      let r ← bychar fuel p.2
      pure (p.1 :: r)

/-- A `for (c, off) : bycharoff(s)` loop, striter.myr:113-132, from index `idx`. -/
def bycharoff (str : List Byte) : Nat → Nat → Res (List (Char32 × Nat))
  | 0, _ => .spin
  | fuel + 1, idx =>
    if idx = str.length then .ok []
    else do
      let t ← slice str idx str.length
      let c ← decode t
      let r ← bycharoff str fuel (idx + charlen c)
      pure ((c, idx + charlen c) :: r)

/-- The `while` loops of `bytok`'s step, striter.myr:173-179 and 181-187: advance
over characters for which `p` holds. -/
def tokSkip (p : Char32 → Bool) (s : List Byte) : Nat → Nat → Res Nat
  | 0, _ => .spin
  | fuel + 1, i =>
    if i < s.length then do
      let t ← slice s i s.length
      let c ← decode t
      if p c then tokSkip p s fuel (i + charlen c) else pure i
    else .ok i

/-- A `for t : bytok(s)` loop, striter.myr:167-199, from index `idx`; `isspace` is
chartype.myr's classification. -/
def bytok (isspace : Char32 → Bool) (s : List Byte) : Nat → Nat → Res (List (List Byte))
  | 0, _ => .spin
  | fuel + 1, idx => do
    let lo ← tokSkip isspace s (s.length + 1) idx
    let hi ← tokSkip (fun c => !isspace c) s (s.length + 1) lo
    let t ← slice s lo hi
    if lo < hi then do
      let r ← bytok isspace s fuel hi
      pure (t :: r)
    else pure []

/-- The loop of `graphemestep`, utf.myr:74-92; `cellwidth` is chartype.myr's
classification; returns the length of the first piece. -/
def graphemeLoop (cellwidth : Char32 → Int) : Nat → List Byte → Nat → Res Nat
  | 0, _, _ => .spin
  | fuel + 1, rest, len =>
    if rest.length > 0 then do
      let p ← charstep rest
      let c := p.1
      let cn := cellwidth c
      if c = 13#32 ∨ c = 10#32 ∨ c = 9#32 then
        if len = 0 then pure 1 else pure len
      else if (cn > 0 ∨ c = Badchar) ∧ len > 0 then pure len
      else if c = Badchar then pure 1
      else graphemeLoop cellwidth fuel p.2 (len + charlen c)
    else .ok len

/-- `graphemestep`, utf.myr:67-95. -/
def graphemestep (cellwidth : Char32 → Int) (str : List Byte) : Res (List Byte × List Byte) := do
  let n ← graphemeLoop cellwidth (str.length + 1) str 0
  let a ← slice str 0 n
  let b ← slice str n str.length
  pure (a, b)

/-- A `for g : bygrapheme(s)` loop, striter.myr:74-101; the pieces are kept as
bytes (the code decodes them with `bychar` afterwards). -/
def bygrapheme (cellwidth : Char32 → Int) : Nat → List Byte → Res (List (List Byte))
  | 0, _ => .spin
  | fuel + 1, rest =>
    if rest.length = 0 then .ok []
    else do
      let p ← graphemestep cellwidth rest
      let r ← bygrapheme cellwidth fuel p.2
      pure (p.1 :: r)

end Verif.Utf
