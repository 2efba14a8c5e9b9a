import Verif.Utf.Props
import Verif.IntFmt.Model

/-!
# Model of `lib/escfmt`

The functions are given the string and yield the text they append to the string buffer (appending
is the subject of C47).
-/

namespace Verif.Esc
open Verif.Utf (Char32)

/-- The text appended by `sbputc`, strbuf.myr:64-70. -/
def putc (c : Char32) : Res (List Byte) := do
  let (n, buf) ← Utf.encode (List.replicate 4 0#8) c
  pure (buf.take n.toNat)

/-- A loop appending a text for each element of a list. -/
def each {α : Type} (f : α → Res (List Byte)) : List α → Res (List Byte)
  | [] => .ok []
  | a :: as => do
    let x ← f a
    let y ← each f as
    pure (x ++ y)

/-- The loop body of `shfmt`, escsh.myr:24-28. -/
def shbyte (b : Byte) : List Byte := if b = 39#8 then [39, 92, 39, 39] else [b]

/-- `shfmt`, escsh.myr:18-31. -/
def shfmt (s : List Byte) : List Byte := [39#8] ++ s.flatMap shbyte ++ [39#8]

/-- The `match` of `htmlfmt`, eschtml.myr:23-29. -/
def htmlchar (c : Char32) : Res (List Byte) :=
  if c = 38#32 then .ok [38, 97, 109, 112, 59]
  else if c = 60#32 then .ok [38, 108, 116, 59]
  else if c = 62#32 then .ok [38, 103, 116, 59]
  else if c = 47#32 then .ok [38, 35, 120, 50, 102, 59]
  else putc c

/-- `htmlfmt`, eschtml.myr:18-31. -/
def htmlfmt (s : List Byte) : Res (List Byte) := do
  let cs ← Utf.bychar (s.length + 1) s
  each htmlchar cs

/-- `std.sbfmt(sb, "%{x}", b)`: the percent sign is copied (fmt.myr:199-200), the byte is formatted
in base 16 without padding (fmt.myr:299-301, `intparams`). -/
def pct (b : Byte) : Res (List Byte) := do
  let t ← IntFmt.intfmt 16 0 32#32 false (b.setWidth 64) 8
  pure (37#8 :: t)

/-- The characters listed in escurl.myr:24-42. -/
def urlspecial : List Byte :=
  [58, 47, 63, 35, 91, 93, 64, 33, 36, 38, 39, 40, 41, 42, 43, 44, 59, 61, 37]

/-- The `match` of `urlfmt`, escurl.myr:23-50; `{}` of a character puts it (fmt.myr:281-283). -/
def urlbyte (b : Byte) : Res (List Byte) :=
  if b ∈ urlspecial then pct b
  else if b ≥ 0x80#8 then pct b
  else putc (b.setWidth 32)

/-- `urlfmt`, escurl.myr:18-52. -/
def urlfmt (s : List Byte) : Res (List Byte) := each urlbyte s

/-- The `match` of `refmt`, escre.myr:23-37. -/
def rechar (c : Char32) : Res (List Byte) :=
  if c = 124#32 then .ok [92, 124]
  else if c = 42#32 then .ok [92, 42]
  else if c = 43#32 then .ok [92, 43]
  else if c = 63#32 then .ok [92, 63]
  else if c = 91#32 then .ok [92, 91]
  else if c = 93#32 then .ok [92, 93]
  else if c = 94#32 then .ok [92, 94]
  else if c = 36#32 then .ok [92, 36]
  else if c = 46#32 then .ok [92, 46]
  else if c = 92#32 then .ok [92, 46]
  else if c = 40#32 then .ok [92, 40]
  else if c = 41#32 then .ok [92, 41]
  else putc c

/-- `refmt`, escre.myr:18-39. -/
def refmt (s : List Byte) : Res (List Byte) := do
  let cs ← Utf.bychar (s.length + 1) s
  each rechar cs

end Verif.Esc
