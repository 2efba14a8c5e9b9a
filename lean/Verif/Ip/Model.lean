import Verif.IntFmt.Model
import Verif.Str.Model
import Verif.Slice.Model

/-!
# Model of /repo/lib/std/ipparse.myr

`v` in `num` is an `int` (32 bits, signed), the type `intparsebase` is used at.
-/

namespace Verif.Ip

/-- The loop at ipparse.myr:135-139: the number of bytes before the separator. -/
def numLen (sep : Byte) : List Byte → Nat
  | [] => 0
  | c :: cs => if c = sep then 0 else numLen sep cs + 1

/-- `num`, ipparse.myr:128-149, before the value is cast to the result type. -/
def num (ip : List Byte) (lo hi base : Int) (sep : Byte) (ok : Bool) : Res (BitVec 32 × List Byte × Bool) :=
  if !ok then .ok (0#32, [], false)
  else do
    let len := numLen sep ip
    let txt ← slice ip 0 len
    match ← IntFmt.intparsebase 32 txt base with
    | some v =>
      if v.toInt < lo ∨ v.toInt > hi then .ok (0#32, [], false)
      else do
        let rest ← slice ip len ip.length
        pure (v, rest, true)
    | none => .ok (0#32, [], false)

/-- `delim`, ipparse.myr:120-126. -/
def delim (ip : List Byte) (sep : Byte) (ok : Bool) : List Byte × Bool :=
  match ip with
  | c :: rest => if c = sep then (rest, ok) else ([], false)
  | [] => ([], false)

/-- `ip4parse`, ipparse.myr:36-53; the values are cast to `byte`. -/
def ip4parse (ip : List Byte) : Res (Option (List Byte)) := do
  let (a, ip, ok) ← num ip 0 255 10 46#8 true
  let (ip, ok) := delim ip 46#8 ok
  let (b, ip, ok) ← num ip 0 255 10 46#8 ok
  let (ip, ok) := delim ip 46#8 ok
  let (c, ip, ok) ← num ip 0 255 10 46#8 ok
  let (ip, ok) := delim ip 46#8 ok
  let (d, ip, ok) ← num ip 0 255 10 46#8 ok
  if ok ∧ ip.length = 0 then pure (some [a.setWidth 8, b.setWidth 8, c.setWidth 8, d.setWidth 8])
  else pure none

/-- The variables of `ip6parse`, ipparse.myr:58-71. -/
structure St where
  val : List Byte
  ip : List Byte
  ok : Bool
  expand : Bool
  segsplit : Nat
  nseg : Nat

/-- The loop of `ip6parse`, ipparse.myr:72-92 (`i` equals `nseg` at the head). -/
def ip6Loop : Nat → St → Res St
  | 0, _ => .spin
  | fuel + 1, s =>
    if s.ip.length > 0 ∧ s.ok then do
      let (v, ip, ok) ← num s.ip 0 65536 16 58#8 s.ok
      let val ← wrChk s.val (s.nseg * 2) (((v &&& 0xff00#32).sshiftRight 8).setWidth 8)
      let val ← wrChk val (s.nseg * 2 + 1) ((v &&& 0xff#32).setWidth 8)
      let nseg := s.nseg + 1
      if ip.length = 0 ∨ nseg = 8 then .ok ⟨val, ip, ok, s.expand, s.segsplit, nseg⟩
      else
        let (ip, ok) := delim ip 58#8 ok
        if ip.head? = some 58#8 ∧ !s.expand then
          let (ip, ok) := delim ip 58#8 ok
          ip6Loop fuel ⟨val, ip, ok, true, nseg, nseg⟩
        else ip6Loop fuel ⟨val, ip, ok, s.expand, s.segsplit, nseg⟩
    else .ok s

/-- `expandsplit`, ipparse.myr:107-118.  `slcp` copies as if through a temporary (memblit, C62). -/
def expandsplit (ip : List Byte) (nseg segsplit : Nat) : Res (List Byte) := do
  let split := segsplit * 2
  let middle := (8 - nseg) * 2
  let head ← slice ip 0 split
  let tail ← slice ip split (ip.length - middle)
  let dst ← slice ip (ip.length - tail.length) ip.length
  if dst.length ≠ tail.length then .abort
  else do
    let ip := ip.take (ip.length - tail.length) ++ tail
    let gap ← slice ip head.length (ip.length - tail.length)
    let gap ← Slice.slfill 0#8 gap.length gap
    pure (ip.take head.length ++ gap ++ ip.drop (ip.length - tail.length))

/-- `ip6parse`, ipparse.myr:57-104; `val0` is the uninitialised array. -/
def ip6parse (val0 : List Byte) (ip : List Byte) : Res (Option (List Byte)) := do
  let pre := ip.take 2
  let s ← ip6Loop 9 ⟨val0, ip, true, decide (ip.length > 2 ∧ pre = [58#8, 58#8]), 0, 0⟩
  if s.ok ∧ s.ip.length = 0 then
    if s.expand then do
      let val ← expandsplit s.val s.nseg s.segsplit
      pure (some val)
    else if s.nseg ≠ 8 then pure none
    else pure (some s.val)
  else pure none

/-- `ipparse`, ipparse.myr:29-34. -/
def ipparse (val0 : List Byte) (ip : List Byte) : Res (Option (List Byte)) := do
  match ← Str.strfind ip [58#8] with
  | some _ => ip6parse val0 ip
  | none => ip4parse ip

end Verif.Ip
