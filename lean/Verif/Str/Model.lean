import Verif.Utf.Model
import Verif.Chartype.Model

/-!
# Model of string searching, splitting, joining, stripping and replacing

/repo/lib/std/{strfind,strsplit,strjoin,strstrip,strreplace,hasprefix,hassuffix}.myr and
`bysplit` of striter.myr.  Strings are byte lists.  Loops with data-dependent length take a
`fuel` and give `spin` when it runs out.
-/

namespace Verif.Str
open Verif.Utf (Char32 decode charlen)

/-- The inner loop of `strfind`, strfind.myr:17-21 (`k` rounds to go,
`j = needle.len - k`): does the needle match at `i`? -/
def matchLoop (h n : List Byte) (i : Nat) : Nat → Res Bool
  | 0 => .ok true
  | k + 1 => do
    let a ← rdChk h (i + (n.length - (k + 1)))
    let b ← rdChk n (n.length - (k + 1))
    if a ≠ b then pure false else matchLoop h n i k

/-- The outer loop of `strfind`, strfind.myr:16-24. -/
def findLoop (h n : List Byte) (i : Nat) : Res (Option Nat) :=
  if hi : i + n.length ≤ h.length then do
    if ← matchLoop h n i n.length then pure (some i) else findLoop h n (i + 1)
  else .ok none
termination_by h.length + 1 - i
decreasing_by omega

/-- `strfind`, strfind.myr:10-26. -/
def strfind (h n : List Byte) : Res (Option Nat) :=
  if n.length > h.length then .ok none
  else if n.length = 0 ∧ h.length = 0 then .ok (some 0)
  else findLoop h n 0

/-- The outer loop of `strrfind`, strfind.myr:34-42, from index `i` down. -/
def rfindLoop (h n : List Byte) : Nat → Res (Option Nat)
  | 0 => do if ← matchLoop h n 0 n.length then pure (some 0) else pure none
  | i + 1 => do if ← matchLoop h n (i + 1) n.length then pure (some (i + 1)) else rfindLoop h n i

/-- `strrfind`, strfind.myr:28-44. -/
def strrfind (h n : List Byte) : Res (Option Nat) :=
  if n.length > h.length then .ok none
  else if n.length = 0 ∧ h.length = 0 then .ok (some 0)
  else rfindLoop h n (h.length - n.length)

/-- `strhas`, strfind.myr:46-51. -/
def strhas (h n : List Byte) : Res Bool := do
  match ← strfind h n with
  | some _ => pure true
  | none => pure false

/-- The loop of `dostrsplit` with `grow = true`, strsplit.myr:43-67. -/
def splitLoop (d : List Byte) : Nat → List Byte → Res (List (List Byte))
  | 0, _ => .spin
  | fuel + 1, s => do
    match ← strfind s d with
    | some i => do
      let p ← slice s 0 i
      let s' ← slice s (i + d.length) s.length
      let r ← splitLoop d fuel s'
      pure (p :: r)
    | none => pure [s]

/-- `strsplit`, strsplit.myr:21-26 and 32-67 with `grow = true`. -/
def strsplit (fuel : Nat) (s d : List Byte) : Res (List (List Byte)) :=
  if s.length = 0 then .ok [] else splitLoop d fuel s

/-- The loop of `dostrsplit` with `grow = false`, strsplit.myr:43-67; `k` is the number of
unused entries of `sp` (`idx < sp#.len - 1` is `k > 1`; storing with `k = 0` is out of range). -/
def bsplitLoop (d : List Byte) : Nat → Nat → List Byte → Res (List (List Byte))
  | 0, _, _ => .spin
  | fuel + 1, k, s => do
    let last : Res (List (List Byte)) := if k = 0 then .abort else .ok [s]
    match ← strfind s d with
    | some i =>
      if 1 < k then do
        let p ← slice s 0 i
        let s' ← slice s (i + d.length) s.length
        let r ← bsplitLoop d fuel (k - 1) s'
        pure (p :: r)
      else last
    | none => last

/-- `bstrsplit` into a slice of `k` entries, strsplit.myr:28-30. -/
def bstrsplit (fuel k : Nat) (s d : List Byte) : Res (List (List Byte)) :=
  if s.length = 0 then .ok [] else bsplitLoop d fuel k s

/-- A `for p : bysplit(s, d)` loop, striter.myr:138-161. -/
def bysplit (d : List Byte) : Nat → List Byte → Res (List (List Byte))
  | 0, _ => .spin
  | fuel + 1, s => do
    match ← strfind s d with
    | some off => do
      let p ← slice s 0 off
      let s' ← slice s (off + d.length) s.length
      let r ← bysplit d fuel s'
      pure (p :: r)
    | none =>
      if s.length > 0 then do
        let r ← bysplit d fuel []
        pure (s :: r)
      else pure []

/-- `slcp(s[off:off + src.len], src)`, e.g. strjoin.myr:29; the destination slice is bounds
checked, its length is `src.len` by construction. -/
def blit (s : List Byte) (off : Nat) (src : List Byte) : Res (List Byte) :=
  if s.length < off + src.length then .abort
  else .ok (s.take off ++ src ++ s.drop (off + src.length))

/-- The copying loop of `strjoin`, strjoin.myr:27-36: the strings still to be copied, the
buffer and the offset. -/
def joinLoop (d : List Byte) : List (List Byte) → List Byte → Nat → Res (List Byte)
  | [], s, _ => .ok s
  | x :: xs, s, off => do
    let s ← blit s off x
    if xs = [] then joinLoop d xs s (off + x.length)
    else do
      let s ← blit s (off + x.length) d
      joinLoop d xs s (off + x.length + d.length)

/-- The length computed by `strjoin`, strjoin.myr:18-24. -/
def joinLen (strings : List (List Byte)) (d : List Byte) : Nat :=
  (strings.map List.length).foldl (· + ·) 0 + (if strings.length > 0 then (strings.length - 1) * d.length else 0)

/-- `strjoin`, strjoin.myr:14-38; `junk n` is the content of `slalloc(n)`. -/
def strjoin (junk : Nat → List Byte) (strings : List (List Byte)) (d : List Byte) : Res (List Byte) :=
  joinLoop d strings (junk (joinLen strings d)) 0

/-- `strreplace`, strreplace.myr:13-29 (the loop; `sljoin` appends, the growth of the
result is not modelled). -/
def replLoop (n repl : List Byte) : Nat → List Byte → List Byte → Res (List Byte)
  | 0, _, _ => .spin
  | fuel + 1, ret, h => do
    match ← strfind h n with
    | none => pure (ret ++ h)
    | some i => do
      let p ← slice h 0 i
      let h' ← slice h (i + n.length) h.length
      replLoop n repl fuel (ret ++ p ++ repl) h'

/-- `strreplace`, strreplace.myr:13-29. -/
def strreplace (fuel : Nat) (h n repl : List Byte) : Res (List Byte) :=
  if n.length > 0 then replLoop n repl fuel [] h else .abort

/-- `strfstrip`, strstrip.myr:17-25. -/
def strfstrip (isblank : Char32 → Bool) : Nat → List Byte → Res (List Byte)
  | 0, _ => .spin
  | fuel + 1, s => do
    let c ← decode s
    if isblank c then do
      let s' ← slice s (charlen c) s.length
      strfstrip isblank fuel s'
    else pure s

/-- The loop of `strrstrip`, strstrip.myr:33-40: `i` downwards, `e` is `end`. -/
def rstripLoop (isspace : Char32 → Bool) (s : List Byte) : Nat → Nat → Res Nat
  | 0, e => .ok e
  | i + 1, e => do
    let b ← rdChk s i
    if b &&& 0x80#8 = 0#8 ∨ b &&& 0xc0#8 ≠ 0x80#8 then do
      let t ← slice s i s.length
      let c ← decode t
      if isspace c then rstripLoop isspace s i i else pure e
    else rstripLoop isspace s i e

/-- `strrstrip`, strstrip.myr:28-42. -/
def strrstrip (isspace : Char32 → Bool) (s : List Byte) : Res (List Byte) := do
  let e ← rstripLoop isspace s s.length s.length
  slice s 0 e

/-- The `while isspace(decode(s[i:])) && i < s.len; i++` loops of `dostrtok`,
strsplit.myr:87-89 and 91-93. -/
def tokLoop (p : Char32 → Bool) (s : List Byte) : Nat → Nat → Res Nat
  | 0, _ => .spin
  | fuel + 1, i => do
    let t ← slice s i s.length
    let c ← decode t
    if p c ∧ i < s.length then tokLoop p s fuel (i + 1) else pure i

/-- `strtok`: `dostrtok` with `grow = true`, strsplit.myr:69-74 and 80-109, from index `i`. -/
def strtok (isspace : Char32 → Bool) (s : List Byte) : Nat → Nat → Res (List (List Byte))
  | 0, _ => .spin
  | fuel + 1, i =>
    if i ≠ s.length then do
      let i ← tokLoop isspace s (s.length + 2) i
      let j ← tokLoop (fun c => !isspace c) s (s.length + 2) i
      if i ≠ j then do
        let t ← slice s i j
        let r ← strtok isspace s fuel j
        pure (t :: r)
      else strtok isspace s fuel j
    else .ok []

/-- `hassuffix`, hassuffix.myr:8-16 (`eq` on byte slices compares lengths, then bytes). -/
def hassuffix (s suff : List Byte) : Res Bool :=
  if suff.length ≤ s.length then do
    let t ← slice s (s.length - suff.length) s.length
    pure (decide (t = suff))
  else .ok false

/-- `isspace` as a total function (chartype.myr:1588-1590 never aborts,
`isspaceB_eq`). -/
def isspaceB (c : Char32) : Bool :=
  match Chartype.isspace c.toNat with
  | .ok b => b
  | _ => false

/-- `isblank` as a total function (chartype.myr:1572-1586). -/
def isblankB (c : Char32) : Bool :=
  match Chartype.isblank c.toNat with
  | .ok b => b
  | _ => false

end Verif.Str
