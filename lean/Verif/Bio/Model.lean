import Verif.Utf.Model

/-!
# Model of buffered files: /repo/lib/bio/{bio,geti,puti}.myr

The functions `read`, `write` a file is made of (`mk`, bio.myr:61-83) are modelled by a
source and a sink.  A *source* holds the bytes still to come and a plan of what the next
calls will do: hand out up to `k` bytes (0 looks like the end of the file) or fail.  A *sink*
collects what it accepted and has a plan of the same kind.  The calls are assumed to return a
count between 0 and the length of the buffer they were given (the contract of read(2) and
write(2)).  The read half and the write half of a file share no state but `lasterr`, which
only the read half uses, so they are modelled as two structures; the mode assertions
(`File is not in read mode`) and `seek` are not modelled.
-/

namespace Verif.Bio

open Verif.Utf

/-- The error numbers `errtype` tells apart, bio.myr:613-626. -/
inductive Errno where
  | ebadf | einval | efault | other
  deriving DecidableEq, Repr

/-- `bio.err`, types.myr. -/
inductive Err where
  | eof | eio | ebadf
  deriving DecidableEq, Repr

/-- `errtype`, bio.myr:613-626. -/
def errtype : Errno → Err
  | .ebadf => .ebadf
  | .einval => .ebadf
  | .efault => .eio
  | .other => .eio

/-- What a single call of `f.read` or `f.write` does (modelling device). -/
inductive Ans where
  | give (k : Nat)
  | fail (e : Errno)
  deriving DecidableEq, Repr

/-- The source behind `f.read`, bio.myr:67: bytes to come and the plan of the next calls;
when the plan is used up, calls hand out as much as they can. -/
structure Src where
  rest : List Byte
  plan : List Ans
  deriving DecidableEq, Repr

/-- A call of `f.read` with a buffer of `n` bytes (bio.myr:180, 582). -/
def Src.read (s : Src) (n : Nat) : Except Errno (List Byte) × Src :=
  match s.plan with
  | [] => (.ok (s.rest.take n), ⟨s.rest.drop n, []⟩)
  | .give k :: p => (.ok (s.rest.take (min k n)), ⟨s.rest.drop (min k n), p⟩)
  | .fail e :: p => (.error e, ⟨s.rest, p⟩)

/-- The read half of a file, types.myr and `mk`, bio.myr:61-83. -/
structure Rd where
  rbuf : List Byte
  rstart : Nat
  rend : Nat
  lasterr : Option Errno
  src : Src
  deriving DecidableEq, Repr

/-- `mk` for a file open for reading, bio.myr:72-77: the contents of the fresh buffer are
arbitrary. -/
def mkRd (rbuf : List Byte) (s : Src) : Rd := ⟨rbuf, 0, 0, none, s⟩

/-- The bytes a call of `f.read` stores into the buffer from index `i` (bio.myr:582). -/
def store (l : List Byte) (i : Nat) (bs : List Byte) : List Byte :=
  l.take i ++ bs ++ l.drop (i + bs.length)

/-- The end of `fill`, bio.myr:598-602. -/
def fillDone (f : Rd) (count : Nat) : Res (Rd × Except Err Nat) :=
  .ok (f, if count = 0 then .error .eof else .ok count)

/-- The loop of `fill`, bio.myr:576-596. -/
def fillLoop (min : Nat) : Nat → Rd → Nat → Res (Rd × Except Err Nat)
  | 0, _, _ => .spin
  | fuel + 1, f, count =>
    if count < min then do
      let d ← slice f.rbuf f.rend f.rbuf.length
      match f.src.read d.length with
      | (.ok [], s) => fillDone { f with src := s } count
      | (.ok (b :: bs), s) =>
        fillLoop min fuel
          { f with rbuf := store f.rbuf f.rend (b :: bs), rend := f.rend + (b :: bs).length, src := s }
          (count + (b :: bs).length)
      | (.error e, s) =>
        if count > 0 then fillDone { f with lasterr := some e, src := s } count
        else .ok ({ f with src := s }, .error (errtype e))
    else fillDone f count

/-- The shift of `fill`, bio.myr:570-575. -/
def shift (f : Rd) (min : Nat) : Res Rd :=
  if min > f.rend - f.rstart then do
    let h ← slice f.rbuf f.rstart f.rend
    pure { f with rbuf := store f.rbuf 0 h, rstart := 0, rend := f.rend - f.rstart }
  else pure f

/-- `fill`, bio.myr:560-603. -/
def fill (f : Rd) (min : Nat) : Res (Rd × Except Err Nat) :=
  match f.lasterr with
  | some e => .ok ({ f with lasterr := none }, .error (errtype e))
  | none => do
    let f ← shift f min
    fillLoop min (min + 1) f 0

/-- `ensureread`, bio.myr:514-532. -/
def ensureread (f : Rd) (n : Nat) : Res (Rd × Except Err Nat) :=
  if ¬ n < f.rbuf.length then .abort
  else
    if n > f.rend - f.rstart then do
      let p ← fill f n
      match p.2 with
      | .error e => pure (p.1, .error e)
      | .ok len =>
        if f.rend - f.rstart + len ≥ n then pure (p.1, .ok len) else pure (p.1, .error .eof)
    else pure (f, .ok n)

/-- The loop of `read`, bio.myr:179-194: `want` bytes are still missing, `got` is what the
destination holds. -/
def readLoop : Nat → Rd → Nat → List Byte → Res (Rd × Except Err (List Byte))
  | 0, _, _, _ => .spin
  | fuel + 1, f, want, got =>
    if want > 0 then
      match f.src.read want with
      | (.ok [], s) =>
        .ok ({ f with src := s }, if got.length = 0 then .error .eof else .ok got)
      | (.ok (b :: bs), s) =>
        readLoop fuel { f with src := s } (want - (b :: bs).length) (got ++ (b :: bs))
      | (.error e, s) =>
        if got.length = 0 then .ok ({ f with src := s }, .error (errtype e))
        else .ok ({ f with lasterr := some e, src := s }, .ok got)
    else .ok (f, if got.length = 0 then .error .eof else .ok got)

/-- The refill of `read`, bio.myr:162-165: the outcome of `fill` is ignored. -/
def readFill (f : Rd) (n : Nat) : Res Rd :=
  if n < 512 ∧ f.rend - f.rstart < n then do
    let p ← fill f n
    pure p.1
  else pure f

/-- `read` into a buffer of `n` bytes, bio.myr:139-200; the result is the filled part. -/
def read (f : Rd) (n : Nat) : Res (Rd × Except Err (List Byte)) :=
  match f.lasterr with
  | some e => .ok ({ f with lasterr := none }, .error (errtype e))
  | none =>
    if n = 0 then .ok (f, .ok [])
    else do
      let f ← readFill f n
      let count := min n (f.rend - f.rstart)
      let h ← slice f.rbuf f.rstart (f.rstart + count)
      let f := if f.rstart + count = f.rend then { f with rstart := 0, rend := 0 }
        else { f with rstart := f.rstart + count }
      readLoop (n + 1) f (n - count) h

/-- `getb`, bio.myr:253-260. -/
def getb (f : Rd) : Res (Rd × Except Err Byte) := do
  let p ← ensureread f 1
  match p.2 with
  | .error e => pure (p.1, .error e)
  | .ok _ => do
    let b ← rdChk p.1.rbuf p.1.rstart
    pure ({ p.1 with rstart := p.1.rstart + 1 }, .ok b)

/-- `peekb`, bio.myr:301-307. -/
def peekb (f : Rd) : Res (Rd × Except Err Byte) := do
  let p ← ensureread f 1
  match p.2 with
  | .error e => pure (p.1, .error e)
  | .ok _ => do
    let b ← rdChk p.1.rbuf p.1.rstart
    pure (p.1, .ok b)

/-- The length `ensurecodepoint` computes, bio.myr:285-295. -/
def cplen (b : Byte) : Nat :=
  if b &&& 0x80#8 = 0#8 then 1
  else if b &&& 0xe0#8 = 0xc0#8 then 2
  else if b &&& 0xf0#8 = 0xe0#8 then 3
  else if b &&& 0xf8#8 = 0xf0#8 then 4
  else 1

/-- `ensurecodepoint`, bio.myr:277-298. -/
def ensurecodepoint (f : Rd) : Res (Rd × Except Err Nat) := do
  let p ← ensureread f 1
  match p.2 with
  | .error e => pure (p.1, .error e)
  | .ok _ => do
    let b ← rdChk p.1.rbuf p.1.rstart
    ensureread p.1 (cplen b)

/-- `getc`, bio.myr:263-274. -/
def getc (f : Rd) : Res (Rd × Except Err Char32) := do
  let p ← ensurecodepoint f
  match p.2 with
  | .error e => pure (p.1, .error e)
  | .ok _ => do
    let h ← slice p.1.rbuf p.1.rstart p.1.rend
    let c ← decode h
    pure ({ p.1 with rstart := p.1.rstart + charlen c }, .ok c)

/-- `peekc`, bio.myr:310-316. -/
def peekc (f : Rd) : Res (Rd × Except Err Char32) := do
  let p ← ensurecodepoint f
  match p.2 with
  | .error e => pure (p.1, .error e)
  | .ok _ => do
    let h ← slice p.1.rbuf p.1.rstart p.1.rend
    let c ← decode h
    pure (p.1, .ok c)

/-- `readinto`, bio.myr:490-494: the file and the extended slice. -/
def readinto (f : Rd) (ret : List Byte) (n : Nat) : Res (Rd × List Byte) :=
  if ¬ f.rstart + n ≤ f.rend then .abort
  else do
    let h ← slice f.rbuf f.rstart (f.rstart + n)
    pure ({ f with rstart := f.rstart + n }, ret ++ h)

/-- `skipmode`, bio.myr:48-52. -/
inductive Mode where
  | drop | read | keep
  deriving DecidableEq, Repr

/-- The inner loop of `readdelim`, bio.myr:434-438: does `delim` stand at index `i`? -/
def matchAt (rbuf : List Byte) : List Byte → Nat → Res Bool
  | [], _ => .ok true
  | x :: d, i => do
    let b ← rdChk rbuf i
    if b ≠ x then pure false else matchAt rbuf d (i + 1)

/-- The scan of `readdelim`, bio.myr:433-451, over `n` indices from `i`. -/
def findDelim (rbuf d : List Byte) : Nat → Nat → Res (Option Nat)
  | 0, _ => .ok none
  | n + 1, i => do
    let m ← matchAt rbuf d i
    if m then pure (some i) else findDelim rbuf d n (i + 1)

/-- The `match mode` of bio.myr:419-423 (the rest of the buffer) and of bio.myr:452-456 (up
to the end of the scan): `n` bytes go to the result, or are dropped. -/
def moveOut (mode : Mode) (f : Rd) (ret : List Byte) (n : Nat) : Res (Rd × List Byte) :=
  match mode with
  | .drop => .ok ({ f with rstart := f.rstart + n }, ret)
  | .read => readinto f ret n
  | .keep => readinto f ret n

/-- The `match mode` of bio.myr:440-448: the delimiter stands at index `i`. -/
def takeDelim (mode : Mode) (f : Rd) (ret : List Byte) (dlen i : Nat) : Res (Rd × List Byte) :=
  match mode with
  | .drop => .ok ({ f with rstart := i + dlen }, ret)
  | .read => do
    let p ← readinto f ret (i - f.rstart)
    pure ({ p.1 with rstart := p.1.rstart + dlen }, p.2)
  | .keep => readinto f ret (i + dlen - f.rstart)

/-- The loop of `readdelim`, bio.myr:409-457. -/
def delimLoop (d : List Byte) (mode : Mode) :
    Nat → Rd → List Byte → Res (Rd × Except Err (List Byte))
  | 0, _, _ => .spin
  | fuel + 1, f, ret => do
    let p ← ensureread f d.length
    match p.2 with
    | .error .eof => do
      let q ← moveOut mode p.1 ret (p.1.rend - p.1.rstart)
      pure (q.1, if q.2.length = 0 then .error .eof else .ok q.2)
    | .error e => pure (p.1, .error e)
    | .ok _ => do
      let m ← findDelim p.1.rbuf d (p.1.rend + 1 - d.length - p.1.rstart) p.1.rstart
      match m with
      | some i => do
        let q ← takeDelim mode p.1 ret d.length i
        pure (q.1, .ok q.2)
      | none => do
        let q ← moveOut mode p.1 ret (p.1.rend + 1 - d.length - p.1.rstart)
        delimLoop d mode fuel q.1 q.2

/-- The number of rounds after which a reading loop must have stopped: the bytes in the
buffer and those to come, plus one (fuel of the model). -/
def Rd.fuel (f : Rd) : Nat := (f.rend - f.rstart) + f.src.rest.length + 1

/-- `readdelim`, bio.myr:402-459. -/
def readdelim (f : Rd) (d : List Byte) (mode : Mode) : Res (Rd × Except Err (List Byte)) :=
  if d.length = 0 then .ok (f, .ok []) else delimLoop d mode f.fuel f []

/-- `readto`, bio.myr:327-329. -/
def readto (f : Rd) (d : List Byte) : Res (Rd × Except Err (List Byte)) := readdelim f d .read

/-- `readterm`, bio.myr:332-334. -/
def readterm (f : Rd) (d : List Byte) : Res (Rd × Except Err (List Byte)) := readdelim f d .keep

/-- `skipto`, bio.myr:337-342. -/
def skipto (f : Rd) (d : List Byte) : Res (Rd × Bool) := do
  let p ← readdelim f d .drop
  match p.2 with
  | .ok _ => pure (p.1, true)
  | .error _ => pure (p.1, false)

/-- `skipspace`, bio.myr:344-356; `isspace` is std's classification. -/
def skipLoop (isspace : Char32 → Bool) : Nat → Rd → Res (Rd × Bool)
  | 0, _ => .spin
  | fuel + 1, f => do
    let p ← peekc f
    match p.2 with
    | .ok c =>
      if !isspace c then pure (p.1, true)
      else do
        let q ← getc p.1
        skipLoop isspace fuel q.1
    | .error _ => pure (p.1, false)

/-- `skipspace`, bio.myr:344-356. -/
def skipspace (isspace : Char32 → Bool) (f : Rd) : Res (Rd × Bool) := skipLoop isspace f.fuel f

/-- The scan of `readln`, bio.myr:377-389, over `n` indices from `i`: where the first line
break is and which character it is. -/
def findNl (rbuf : List Byte) : Nat → Nat → Res (Option (Nat × Byte))
  | 0, _ => .ok none
  | n + 1, i => do
    let c ← rdChk rbuf i
    if c = 0x0d#8 ∨ c = 0x0a#8 then pure (some (i, c)) else findNl rbuf n (i + 1)

/-- `unwrapc`, bio.myr:395-400. -/
def unwrapc (cc : Except Err Char32) (v : Char32) : Char32 :=
  match cc with
  | .ok c => c
  | .error _ => v

/-- What `readln` does after a `'\r'` or `'\n'`, bio.myr:381-385. -/
def eatNl (f : Rd) (c : Byte) : Res Rd :=
  let f := { f with rstart := f.rstart + 1 }
  if c = 0x0d#8 then do
    let p ← peekc f
    if unwrapc p.2 0xffffffff#32 = 0x0a#32 then
      pure { p.1 with rstart := p.1.rstart + 1 }
    else pure p.1
  else pure f

/-- The loop of `readln`, bio.myr:363-391. -/
def lnLoop : Nat → Rd → List Byte → Res (Rd × Except Err (List Byte))
  | 0, _, _ => .spin
  | fuel + 1, f, ret => do
    let p ← ensureread f 1
    match p.2 with
    | .error .eof => do
      let q ← readinto p.1 ret (p.1.rend - p.1.rstart)
      pure (q.1, if q.2.length > 0 then .ok q.2 else .error .eof)
    | .error e => pure (p.1, .error e)
    | .ok _ => do
      let m ← findNl p.1.rbuf (p.1.rend - p.1.rstart) p.1.rstart
      match m with
      | some (i, c) => do
        let q ← readinto p.1 ret (i - p.1.rstart)
        let g ← eatNl q.1 c
        pure (g, .ok q.2)
      | none => do
        let q ← readinto p.1 ret (p.1.rend - p.1.rstart)
        lnLoop fuel q.1 q.2

/-- `readln`, bio.myr:359-393. -/
def readln (f : Rd) : Res (Rd × Except Err (List Byte)) := lnLoop f.fuel f []

/-- The loop of `getle`, geti.myr:29-31: `n` bytes are left, `i` were read. -/
def leLoop (rbuf : List Byte) : Nat → Nat → Nat → BitVec 64 → Res (BitVec 64)
  | 0, _, _, v => .ok v
  | n + 1, start, i, v => do
    let b ← rdChk rbuf start
    leLoop rbuf n (start + 1) (i + 1) (v ||| (b.setWidth 64 <<< (8 * i)))

/-- The loop of `getbe`, geti.myr:45-48. -/
def beLoop (rbuf : List Byte) : Nat → Nat → BitVec 64 → Res (BitVec 64)
  | 0, _, v => .ok v
  | n + 1, start, v => do
    let b ← rdChk rbuf start
    beLoop rbuf n (start + 1) ((v <<< 8) ||| b.setWidth 64)

/-- `getle`, geti.myr:24-34; the conversion to the caller's type is left out. -/
def getle (f : Rd) (n : Nat) : Res (Rd × Except Err (BitVec 64)) := do
  let p ← ensureread f n
  match p.2 with
  | .error e => pure (p.1, .error e)
  | .ok _ => do
    let v ← leLoop p.1.rbuf n p.1.rstart 0 0#64
    pure ({ p.1 with rstart := p.1.rstart + n }, .ok v)

/-- `getbe`, geti.myr:40-51; the conversion to the caller's type is left out. -/
def getbe (f : Rd) (n : Nat) : Res (Rd × Except Err (BitVec 64)) := do
  let p ← ensureread f n
  match p.2 with
  | .error e => pure (p.1, .error e)
  | .ok _ => do
    let v ← beLoop p.1.rbuf n p.1.rstart 0#64
    pure ({ p.1 with rstart := p.1.rstart + n }, .ok v)

/-! ## Writing -/

/-- The sink behind `f.write`, bio.myr:68: what it accepted so far and the plan of the next
calls; when the plan is used up, calls accept everything. -/
structure Snk where
  out : List Byte
  plan : List Ans
  deriving DecidableEq, Repr

/-- A call of `f.write` (bio.myr:540): the number of bytes accepted. -/
def Snk.write (s : Snk) (bs : List Byte) : Except Errno Nat × Snk :=
  match s.plan with
  | [] => (.ok bs.length, ⟨s.out ++ bs, []⟩)
  | .give k :: p => (.ok (min k bs.length), ⟨s.out ++ bs.take k, p⟩)
  | .fail e :: p => (.error e, ⟨s.out, p⟩)

/-- The write half of a file, types.myr and `mk`, bio.myr:61-83. -/
structure Wr where
  wbuf : List Byte
  wend : Nat
  snk : Snk
  deriving DecidableEq, Repr

/-- `mk` for a file open for writing, bio.myr:78-81. -/
def mkWr (wbuf : List Byte) (s : Snk) : Wr := ⟨wbuf, 0, s⟩

/-- The loop of `writebuf`, bio.myr:539-549. -/
def wbLoop : Nat → Snk → List Byte → Nat → Res (Snk × Except Err Nat)
  | 0, _, _, _ => .spin
  | fuel + 1, s, src, count =>
    if src.length ≠ 0 then
      match s.write src with
      | (.ok 0, s) => .ok (s, .error .eof)
      | (.ok (n + 1), s) => do
        let src ← slice src (n + 1) src.length
        wbLoop fuel s src (count + (n + 1))
      | (.error e, s) => .ok (s, .error (errtype e))
    else .ok (s, .ok count)

/-- `writebuf`, bio.myr:535-552. -/
def writebuf (f : Wr) (src : List Byte) : Res (Wr × Except Err Nat) := do
  let p ← wbLoop (src.length + 1) f.snk src 0
  pure ({ f with snk := p.1 }, p.2)

/-- `flush`, bio.myr:203-215. -/
def flush (f : Wr) : Res (Wr × Bool) := do
  let b ← slice f.wbuf 0 f.wend
  let p ← writebuf f b
  pure ({ p.1 with wend := 0 }, match p.2 with
    | .ok n => n == p.1.wend
    | .error _ => false)

/-- `ensurewrite`, bio.myr:497-508. -/
def ensurewrite (f : Wr) (n : Nat) : Res (Wr × Except Err Nat) :=
  if ¬ n < f.wbuf.length then .abort
  else if n > f.wbuf.length - f.wend then do
    let b ← slice f.wbuf 0 f.wend
    let p ← writebuf f b
    match p.2 with
    | .ok len => pure ({ p.1 with wend := 0 }, .ok len)
    | .error e => pure (p.1, .error e)
  else pure (f, .ok n)

/-- `write`, bio.myr:119-133. -/
def write (f : Wr) (src : List Byte) : Res (Wr × Except Err Nat) :=
  if src.length ≤ f.wbuf.length - f.wend then do
    let _ ← slice f.wbuf f.wend (f.wend + src.length)
    pure ({ f with wbuf := store f.wbuf f.wend src, wend := f.wend + src.length }, .ok src.length)
  else do
    let p ← flush f
    writebuf p.1 src

/-- `putb`, bio.myr:227-235. -/
def putb (f : Wr) (b : Byte) : Res (Wr × Except Err Nat) := do
  let p ← ensurewrite f 1
  match p.2 with
  | .error e => pure (p.1, .error e)
  | .ok _ => do
    let w ← wrChk p.1.wbuf p.1.wend b
    pure ({ p.1 with wbuf := w, wend := p.1.wend + 1 }, .ok 1)

/-- `putc`, bio.myr:238-250. -/
def putc (f : Wr) (c : Char32) : Res (Wr × Except Err Nat) := do
  let p ← ensurewrite f (charlen c)
  match p.2 with
  | .error e => pure (p.1, .error e)
  | .ok _ => do
    let t ← slice p.1.wbuf p.1.wend p.1.wbuf.length
    let q ← encode t c
    pure ({ p.1 with wbuf := p.1.wbuf.take p.1.wend ++ q.2, wend := p.1.wend + charlen c },
      .ok (charlen c))

/-- The buffer `putle` fills, puti.myr:37-44: byte `i` is `(v >> 8*i) & 0xff`. -/
def leBytes (v : BitVec 64) : List Byte :=
  [((v >>> 0) &&& 0xff#64).setWidth 8, ((v >>> 8) &&& 0xff#64).setWidth 8,
   ((v >>> 16) &&& 0xff#64).setWidth 8, ((v >>> 24) &&& 0xff#64).setWidth 8,
   ((v >>> 32) &&& 0xff#64).setWidth 8, ((v >>> 40) &&& 0xff#64).setWidth 8,
   ((v >>> 48) &&& 0xff#64).setWidth 8, ((v >>> 56) &&& 0xff#64).setWidth 8]

/-- The buffer `putbe` fills, puti.myr:56-63. -/
def beBytes (v : BitVec 64) : List Byte :=
  [((v >>> 56) &&& 0xff#64).setWidth 8, ((v >>> 48) &&& 0xff#64).setWidth 8,
   ((v >>> 40) &&& 0xff#64).setWidth 8, ((v >>> 32) &&& 0xff#64).setWidth 8,
   ((v >>> 24) &&& 0xff#64).setWidth 8, ((v >>> 16) &&& 0xff#64).setWidth 8,
   ((v >>> 8) &&& 0xff#64).setWidth 8, ((v >>> 0) &&& 0xff#64).setWidth 8]

/-- `putle`, puti.myr:30-47. -/
def putle (f : Wr) (v : BitVec 64) (n : Nat) : Res (Wr × Except Err Nat) := do
  let p ← ensurewrite f n
  match p.2 with
  | .error e => pure (p.1, .error e)
  | .ok _ => do
    let b ← slice (leBytes v) 0 n
    write p.1 b

/-- `putbe`, puti.myr:49-66. -/
def putbe (f : Wr) (v : BitVec 64) (n : Nat) : Res (Wr × Except Err Nat) := do
  let p ← ensurewrite f n
  match p.2 with
  | .error e => pure (p.1, .error e)
  | .ok _ => do
    let b ← slice (beBytes v) (8 - n) 8
    write p.1 b

end Verif.Bio
