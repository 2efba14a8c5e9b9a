import Verif.Utf.Model

/-!
# Model of the slice utilities, string buffers and whole-file helpers

/repo/lib/std/{alloc,slput,slpush,slpop,sljoin,slcp,sldup,slfill,sleq,strbuf,slurp,readall,writeall,blat,cstrconv,chomp}.myr.
-/

namespace Verif.Slice

/-- A slice owning an allocation: the visible elements and the ones between the length and
the capacity (`slcap`, alloc.myr:181-187).  The byte capacity divided by the element size is
`data.length + spare.length`; a slice that does not start at an allocation (or was freed) is
not modelled (precondition of `slgrow`). -/
structure Sl (α : Type) where
  data : List α
  spare : List α
  deriving DecidableEq, Repr

/-- The `while nel < len` loop of `slgrow`, alloc.myr:153-155. -/
def growLoop (len nel : Nat) : Nat :=
  if nel < len then growLoop len (nel + (nel >>> 2 + 1)) else nel
termination_by len - nel
decreasing_by omega

/-- `slgrow`, alloc.myr:135-165; `fresh n` is the memory got from `slalloc(n)`, at least `n`
elements of arbitrary content.  The old memory is freed (not modelled). -/
def slgrow {α : Type} (fresh : Nat → List α) (sl : Sl α) (len : Nat) : Res (Sl α) :=
  if sl.data.length + sl.spare.length ≥ len then
    .ok ⟨(sl.data ++ sl.spare).take len, (sl.data ++ sl.spare).drop len⟩
  else do
    let nel := growLoop len sl.data.length
    let new := fresh nel
    let n := if len < sl.data.length then len else sl.data.length
    let new := sl.data.take n ++ new.drop n
    if nel < len then .abort
    else pure ⟨new.take len, new.drop len⟩

/-- `slzgrow`, alloc.myr:168-179; `zero` is the all-zero-bytes element. -/
def slzgrow {α : Type} (fresh : Nat → List α) (zero : α) (sl : Sl α) (len : Nat) : Res (Sl α) := do
  let oldlen := sl.data.length
  let sl ← slgrow fresh sl len
  if oldlen < len then
    pure ⟨sl.data.take oldlen ++ List.replicate (len - oldlen) zero, sl.spare⟩
  else pure sl

/-- The loop of `slput`, slput.myr:16-18: `n = i + 1 - idx` rounds to go. -/
def putLoop {α : Type} (idx : Nat) : Nat → List α → Res (List α)
  | 0, l => .ok l
  | n + 1, l => do
    let v ← rdChk l (idx + n)
    let l ← wrChk l (idx + n + 1) v
    putLoop idx n l

/-- `slput`, slput.myr:10-21, for `idx ≥ 0`. -/
def slput {α : Type} (fresh : Nat → List α) (sl : Sl α) (idx : Nat) (elt : α) : Res (Sl α) := do
  let len := sl.data.length
  let sl ← slgrow fresh sl (len + 1)
  let l ← putLoop idx (len - idx) sl.data
  let l ← wrChk l idx elt
  pure ⟨l, sl.spare⟩

/-- The loop of `sldel`, slput.myr:24-26: `n = len - 1 - i` rounds to go. -/
def delLoop {α : Type} : Nat → Nat → List α → Res (List α)
  | 0, _, l => .ok l
  | n + 1, i, l => do
    let v ← rdChk l (i + 1)
    let l ← wrChk l i v
    delLoop n (i + 1) l

/-- `sldel`, slput.myr:23-29, for `idx ≥ 0`; slicing an empty slice to length -1 is out of
bounds. -/
def sldel {α : Type} (sl : Sl α) (idx : Nat) : Res (Sl α) := do
  let l ← delLoop (sl.data.length - 1 - idx) idx sl.data
  if l.length = 0 then .abort
  else pure ⟨l.take (l.length - 1), l.drop (l.length - 1) ++ sl.spare⟩

/-- `slpush`, slpush.myr:8-20. -/
def slpush {α : Type} (fresh : Nat → List α) (sl : Sl α) (elt : α) : Res (Sl α) := do
  let sl ← slgrow fresh sl (sl.data.length + 1)
  let l ← wrChk sl.data (sl.data.length - 1) elt
  pure ⟨l, sl.spare⟩

/-- `slpop`, slpop.myr:8-14. -/
def slpop {α : Type} (fresh : Nat → List α) (sl : Sl α) : Res (α × Sl α) := do
  if sl.data.length = 0 then .abort
  else do
    let elt ← rdChk sl.data (sl.data.length - 1)
    let sl ← slgrow fresh sl (sl.data.length - 1)
    pure (elt, sl)

/-- `sljoin`, sljoin.myr:8-15; `src` must not point into the memory of `dst` (which may be
freed before it is copied). -/
def sljoin {α : Type} (fresh : Nat → List α) (dst : Sl α) (src : List α) : Res (Sl α) := do
  let len := dst.data.length
  let dst ← slgrow fresh dst (len + src.length)
  let tail ← slice dst.data len dst.data.length
  if tail.length ≠ src.length then .abort
  else pure ⟨dst.data.take len ++ src, dst.spare⟩

/-- `slfill`, slfill.myr:5-10; `n` rounds to go. -/
def slfill {α : Type} (v : α) : Nat → List α → Res (List α)
  | 0, l => .ok l
  | n + 1, l => do
    let l ← wrChk l (l.length - (n + 1)) v
    slfill v n l

/-- `eq` on slices, sleq.myr:29-42, with element equality `e`; `n` rounds to go. -/
def sleqLoop {α : Type} (e : α → α → Bool) (a b : List α) : Nat → Res Bool
  | 0 => .ok true
  | n + 1 => do
    let x ← rdChk a (a.length - (n + 1))
    let y ← rdChk b (a.length - (n + 1))
    if !e x y then pure false else sleqLoop e a b n

/-- `eq` on slices, sleq.myr:29-42. -/
def sleq {α : Type} (e : α → α → Bool) (a b : List α) : Res Bool :=
  if a.length ≠ b.length then .ok false else sleqLoop e a b a.length

/-- `strbuf`, strbuf.myr:10-14; `len` is signed. -/
structure Sb where
  buf : Sl Byte
  len : Int
  fixed : Bool
  deriving DecidableEq, Repr

/-- The loop of `ensure`, strbuf.myr:103-105. -/
def ensureLoop (fresh : Nat → List Byte) (need : Int) : Nat → Sl Byte → Res (Sl Byte)
  | 0, _ => .spin
  | fuel + 1, buf =>
    if (buf.data.length : Int) < need then do
      let buf ← slgrow fresh buf (2 * buf.data.length)
      ensureLoop fresh need fuel buf
    else .ok buf

/-- `ensure`, strbuf.myr:99-107. -/
def ensure (fresh : Nat → List Byte) (fuel : Nat) (sb : Sb) (len : Int) : Res (Sb × Bool) :=
  if sb.fixed ∧ sb.len + len > sb.buf.data.length then .ok (sb, false)
  else do
    let buf ← ensureLoop fresh (sb.len + len) fuel sb.buf
    pure ({ sb with buf := buf }, true)

/-- `sb.buf[lo:]` etc. with a signed start: negative or beyond the end is undefined (only the
upper end is checked). -/
def sliceI (l : List Byte) (lo hi : Int) : Res (List Byte) :=
  if hi < 0 ∨ (l.length : Int) < hi then .abort
  else if lo < 0 ∨ hi < lo then .ub else .ok ((l.take hi.toNat).drop lo.toNat)

/-- `sbputc`, strbuf.myr:64-70. -/
def sbputc (fresh : Nat → List Byte) (fuel : Nat) (sb : Sb) (v : Utf.Char32) : Res (Sb × Bool) := do
  let (sb, ok) ← ensure fresh fuel sb (Utf.charlen v)
  if !ok then pure (sb, false)
  else do
    let tail ← sliceI sb.buf.data sb.len sb.buf.data.length
    let (n, tail) ← Utf.encode tail v
    pure ({ sb with buf := ⟨sb.buf.data.take sb.len.toNat ++ tail, sb.buf.spare⟩, len := sb.len + n }, true)

/-- `sbputs`, strbuf.myr:71-81. -/
def sbputs (fresh : Nat → List Byte) (fuel : Nat) (sb : Sb) (v : List Byte) : Res (Sb × Bool) := do
  let (sb, ok) ← ensure fresh fuel sb v.length
  let room : Int := sb.buf.data.length - sb.len
  let len : Int := if room < v.length then room else v.length
  let dst ← sliceI sb.buf.data sb.len (sb.len + len)
  let src ← sliceI v 0 len
  if dst.length ≠ src.length then .abort
  else
    pure ({ sb with
      buf := ⟨sb.buf.data.take sb.len.toNat ++ src ++ sb.buf.data.drop (sb.len.toNat + src.length), sb.buf.spare⟩,
      len := sb.len + len }, ok)

/-- `sbputb`, strbuf.myr:82-88. -/
def sbputb (fresh : Nat → List Byte) (fuel : Nat) (sb : Sb) (v : Byte) : Res (Sb × Bool) := do
  let (sb, ok) ← ensure fresh fuel sb 1
  if !ok then pure (sb, false)
  else if sb.len < 0 then .abort
  else do
    let l ← wrChk sb.buf.data sb.len.toNat v
    pure ({ sb with buf := ⟨l, sb.buf.spare⟩, len := sb.len + 1 }, true)

/-- `sbtrim`, strbuf.myr:90-97. -/
def sbtrim (sb : Sb) (len : Int) : Sb :=
  let len := if sb.len < len then sb.len else len
  if len < 0 then { sb with len := sb.len - (if len < 0 then -len else len) }
  else { sb with len := len }

/-- `sbpeek`, strbuf.myr:60-62. -/
def sbpeek (sb : Sb) : Res (List Byte) := sliceI sb.buf.data 0 sb.len

/-- `mksb`, strbuf.myr:28-33; `fresh 1` has at least one element. -/
def mksb (fresh : Nat → List Byte) : Sb := ⟨⟨(fresh 1).take 1, (fresh 1).drop 1⟩, 0, false⟩

/-- `mkbufsb`, strbuf.myr:35-42. -/
def mkbufsb (buf : List Byte) : Sb := ⟨⟨buf, []⟩, 0, true⟩

/-! ### Whole-file helpers: the operating system is an adversary -/

/-- The `t`-th `read(fd, buf)` of a file with `rest` still to be read into a buffer of `n`
bytes: an error (`none`), or a count chosen by the environment, which is zero only at the end
of the file or for an empty buffer (POSIX read(2); not code of /repo). -/
def sysread (env : Nat → Option Nat) (t : Nat) (rest n : Nat) : Option Nat :=
  (env t).map fun k => min (k + 1) (min rest n)

/-- The loop of `fslurp`, slurp.myr:34-48: `t` counts system calls, `buf#.len = bufsz`. -/
def slurpLoop (fresh : Nat → List Byte) (env : Nat → Option Nat) :
    Nat → Nat → List Byte → Sl Byte → Nat → Nat → Res (Option (List Byte))
  | 0, _, _, _, _, _ => .spin
  | fuel + 1, t, file, buf, len, bufsz => do
    let tail ← slice buf.data len buf.data.length
    match sysread env t file.length tail.length with
    | none => pure none
    | some n =>
      if n = 0 then do
        let r ← slice buf.data 0 len
        pure (some r)
      else do
        let buf := Sl.mk (buf.data.take len ++ file.take n ++ buf.data.drop (len + n)) buf.spare
        let file := file.drop n
        let len := len + n
        if len + 2 * n ≥ bufsz then do
          let buf ← slgrow fresh buf (bufsz * 2)
          slurpLoop fresh env fuel (t + 1) file buf len (bufsz * 2)
        else slurpLoop fresh env fuel (t + 1) file buf len bufsz

/-- `fslurp`, slurp.myr:27-50. -/
def fslurp (fresh : Nat → List Byte) (env : Nat → Option Nat) (fuel : Nat) (file : List Byte) :
    Res (Option (List Byte)) :=
  slurpLoop fresh env fuel 0 file ⟨(fresh 4096).take 4096, (fresh 4096).drop 4096⟩ 0 4096

/-- `readall`, readall.myr:11-26: filled part and rest of the buffer, rest of the file; the
result is the filled part (its length is the count) or an error. -/
def readallLoop (env : Nat → Option Nat) : Nat → Nat → List Byte → List Byte → Nat → Res (Option (List Byte))
  | 0, _, _, _, _ => .spin
  | fuel + 1, t, file, done, dst =>
    if dst ≠ 0 then
      match sysread env t file.length dst with
      | none => .ok none
      | some n =>
        if n = 0 then .ok (some done)
        else readallLoop env fuel (t + 1) (file.drop n) (done ++ file.take n) (dst - n)
    else .ok (some done)

/-- The `t`-th `write(fd, buf)`: an error or any count up to the length, possibly zero
(POSIX write(2); not code of /repo). -/
def syswrite (env : Nat → Option Nat) (t n : Nat) : Option Nat := (env t).map fun k => min k n

/-- `writeall`, writeall.myr:11-23: what was written and whether `Ok` is returned. -/
def writeallLoop (env : Nat → Option Nat) : Nat → Nat → List Byte → List Byte → Res (List Byte × Bool)
  | 0, _, _, _ => .spin
  | fuel + 1, t, out, src =>
    if src.length ≠ 0 then
      match syswrite env t src.length with
      | none => .ok (out, false)
      | some n =>
        if n = 0 then .ok (out, false)
        else writeallLoop env fuel (t + 1) (out ++ src.take n) (src.drop n)
    else .ok (out, true)

/-- `fblat`, blat.myr:21-36: what was written and the result. -/
def fblatLoop (env : Nat → Option Nat) (buf : List Byte) : Nat → Nat → List Byte → Nat → Res (List Byte × Bool)
  | 0, _, _, _ => .spin
  | fuel + 1, t, out, count => do
    let tail ← slice buf count buf.length
    match syswrite env t tail.length with
    | none => pure (out, false)
    | some n =>
      if n = 0 then pure (out, decide (count = buf.length))
      else fblatLoop env buf fuel (t + 1) (out ++ tail.take n) (count + n)

/-- `blat`, blat.myr:9-18, on an existing file with content `old`: it is opened with
`Ocreat|Owrite` only, so written bytes replace the beginning of the old content. -/
def blat (env : Nat → Option Nat) (old buf : List Byte) : Res (List Byte × Bool) := do
  let (out, ok) ← fblatLoop env buf (buf.length + 1) 0 [] 0
  pure (out ++ old.drop out.length, ok)

/-- `cstrconv`, cstrconv.myr:9-16; `n` rounds to go. -/
def cstrconv (buf : List Byte) : Nat → Res (List Byte)
  | 0 => .ok buf
  | n + 1 => do
    let b ← rdChk buf (buf.length - (n + 1))
    if b = 0#8 then slice buf 0 (buf.length - (n + 1)) else cstrconv buf n

/-- `cstrlen`, cstrconv.myr:28-35; `n` rounds to go. -/
def cstrlen (buf : List Byte) : Nat → Res Nat
  | 0 => .ok 0
  | n + 1 => do
    let b ← rdChk buf (buf.length - (n + 1))
    if b = 0#8 then pure (buf.length - (n + 1)) else cstrlen buf n

end Verif.Slice
