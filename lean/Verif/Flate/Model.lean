import Verif.Prelude

/-!
# Model of /repo/lib/flate/flate.myr

The input file is the list of bytes still to come: `bio.getb` gives the first of them, or an
error at the end (C48).  The output file is the list of bytes written so far: `bio.putb`
appends one (C49).  Failures of the two files other than the end of the input are left out.
Integers are naturals where the values are small; `bits` is modelled in 32 bits.
-/

namespace Verif.Flate

/-- `type err`, types.myr:4-7. -/
inductive Err where
  | io
  | format
  deriving DecidableEq, Repr

/-- Code that returns an `std.result` (modelling device). -/
def FM (α : Type) : Type := Res (Except Err α)

namespace FM
/-- Success. -/
def ret {α : Type} (a : α) : FM α := Res.ok (.ok a)
/-- An error is returned. -/
def err {α : Type} (e : Err) : FM α := Res.ok (.error e)
/-- The code does not come back. -/
def spin {α : Type} : FM α := Res.spin
/-- An assertion fails. -/
def abort {α : Type} : FM α := Res.abort
/-- Errors are passed on. -/
def bind {α β : Type} (m : FM α) (f : α → FM β) : FM β :=
  match m with
  | .ok (.ok a) => f a
  | .ok (.error e) => .ok (.error e)
  | .abort => .abort
  | .ub => .ub
  | .spin => .spin
/-- A function without errors of its own. -/
def lift {α : Type} : Res α → FM α
  | .ok a => .ok (.ok a)
  | .abort => .abort
  | .ub => .ub
  | .spin => .spin
instance : Monad FM where
  pure := ret
  bind := bind
end FM

/-- flate.myr:62. -/
def MaxLenSyms : Nat := 288
/-- flate.myr:63. -/
def MaxDstSyms : Nat := 32
/-- flate.myr:65. -/
def MaxBits : Nat := 15
/-- flate.myr:67. -/
def WinSz : Nat := 32768

/-- The input side of `flatedec`, flate.myr:22, 26-27. -/
structure In where
  rd : List Byte
  bval : BitVec 32
  bpos : Nat
  deriving DecidableEq, Repr

/-- The output side of `flatedec`, flate.myr:23, 30-32. -/
structure Win where
  out : List Byte
  wpos : Nat
  wlen : Nat
  wbuf : List Byte
  deriving DecidableEq, Repr

/-- `type hufc`, flate.myr:40-47. -/
structure Hufc where
  count : List Nat
  symbol : List Nat
  deriving DecidableEq, Repr

/-- `outb`, flate.myr:86-105. -/
def outb (w : Win) (b : Byte) : FM Win :=
  if w.wpos = WinSz then
    if w.wlen ≥ WinSz then do
      let buf ← FM.lift (wrChk w.wbuf 0 b)
      FM.ret ⟨w.out ++ [b], 0 + 1, w.wlen + 1, buf⟩
    else FM.abort
  else do
    let buf ← FM.lift (wrChk w.wbuf w.wpos b)
    FM.ret ⟨w.out ++ [b], w.wpos + 1, w.wlen + 1, buf⟩

/-- The loop of `bits`, flate.myr:113-121. -/
def bitsLoop : Nat → In → Nat → Nat → BitVec 32 → FM (In × Nat × BitVec 32)
  | 0, _, _, _, _ => FM.spin
  | fuel + 1, i, n, len, bits =>
    if len < n then
      match i.rd with
      | [] => FM.err .io
      | b :: rd => bitsLoop fuel ⟨rd, b.setWidth 32, i.bpos⟩ n (len + 8) (bits + b.setWidth 32 <<< len)
    else FM.ret (i, len, bits)

/-- `bits`, flate.myr:107-124. -/
def bits (i : In) (n : Nat) : FM (Nat × In) :=
  if n ≤ 31 then do
    let p ← bitsLoop (n + 1) i n (8 - i.bpos) (i.bval.sshiftRight i.bpos)
    FM.ret ((p.2.2 &&& (1#32 <<< n - 1#32)).toNat, { p.1 with bpos := 8 - (p.2.1 - n) })
  else FM.abort

/-- The loop of `nocomp`, flate.myr:144-153. -/
def storedLoop : Nat → In → Win → FM (In × Win)
  | 0, i, w => FM.ret (i, w)
  | n + 1, i, w =>
    match i.rd with
    | [] => FM.err .io
    | b :: rd => do
      let w ← outb w b
      storedLoop n { i with rd := rd } w

/-- `nocomp`, flate.myr:126-156. -/
def nocomp (i : In) (w : Win) : FM (In × Win) := do
  let p ← bits { i with bpos := 8 } 16
  let q ← bits p.2 16
  if p.1 ≠ q.1 ^^^ 0xffff then FM.err .format
  else storedLoop p.1 q.2 w

/-- The first loop of `mkhufc`, flate.myr:166-168. -/
def countLoop : List Nat → List Nat → Res (List Nat)
  | [], c => .ok c
  | l :: ls, c => do
    let x ← rdChk c l
    let c ← wrChk c l (x + 1)
    countLoop ls c

/-- The second loop of `mkhufc`, flate.myr:171-173, with `n` rounds to go. -/
def indexLoop (count : List Nat) : Nat → Nat → List Nat → Res (List Nat)
  | 0, _, ix => .ok ix
  | n + 1, l, ix => do
    let a ← rdChk ix (l - 1)
    let b ← rdChk count (l - 1)
    let ix ← wrChk ix l (a + b)
    indexLoop count n (l + 1) ix

/-- The third loop of `mkhufc`, flate.myr:174-178. -/
def symLoop : List Nat → Nat → List Nat → List Nat → Res (List Nat)
  | [], _, _, sy => .ok sy
  | l :: ls, s, ix, sy =>
    if l ≠ 0 then do
      let i ← rdChk ix l
      let ix ← wrChk ix l (i + 1)
      let sy ← wrChk sy i s
      symLoop ls (s + 1) ix sy
    else symLoop ls (s + 1) ix sy

/-- `mkhufc`, flate.myr:158-180; `symbol` is what the array held before. -/
def mkhufc (length : List Nat) (symbol : List Nat) : Res Hufc :=
  if length.length ≤ symbol.length then do
    let count ← countLoop length (List.replicate (MaxBits + 1) 0)
    let count ← wrChk count 0 0
    let index ← indexLoop count MaxBits 1 (List.replicate (MaxBits + 1) 0)
    let symbol ← symLoop length 0 index symbol
    pure ⟨count, symbol⟩
  else .abort

/-- Reading an array at a computed index (modelling device): a negative index, taken as
unsigned, is out of bounds. -/
def rdInt (l : List Nat) (i : Int) : Res Nat := if i < 0 then .abort else rdChk l i.toNat

/-- The loop of `readcode`, flate.myr:193-208, with `n` rounds to go. -/
def codeLoop (hc : Hufc) : Nat → Nat → In → Nat → Nat → Nat → FM (Nat × In)
  | 0, _, _, _, _, _ => FM.err .format
  | n + 1, len, i, code, first, index => do
    let p ← bits i 1
    let count ← FM.lift (rdChk hc.count len)
    if code + p.1 < first + count then do
      let s ← FM.lift (rdInt hc.symbol (index + (((code + p.1 : Nat) : Int) - first)))
      FM.ret (s, p.2)
    else codeLoop hc n (len + 1) p.2 ((code + p.1) <<< 1) ((first + count) <<< 1) (index + count)

/-- `readcode`, flate.myr:182-209. -/
def readcode (i : In) (hc : Hufc) : FM (Nat × In) := codeLoop hc MaxBits 1 i 0 0 0

/-- flate.myr:213-216. -/
def basel : List Nat :=
  [3, 4, 5, 6, 7, 8, 9, 10, 11, 13, 15, 17, 19, 23, 27, 31,
   35, 43, 51, 59, 67, 83, 99, 115, 131, 163, 195, 227, 258]

/-- flate.myr:217-220. -/
def extral : List Nat :=
  [0, 0, 0, 0, 0, 0, 0, 0, 1, 1, 1, 1, 2, 2, 2, 2, 3, 3, 3, 3, 4, 4, 4, 4, 5, 5, 5, 5, 0]

/-- flate.myr:221-225. -/
def based : List Nat :=
  [1, 2, 3, 4, 5, 7, 9, 13, 17, 25, 33, 49, 65, 97, 129, 193,
   257, 385, 513, 769, 1025, 1537, 2049, 3073, 4097, 6145,
   8193, 12289, 16385, 24577]

/-- flate.myr:226-229. -/
def extrad : List Nat :=
  [0, 0, 0, 0, 1, 1, 2, 2, 3, 3, 4, 4, 5, 5, 6, 6, 7, 7, 8, 8, 9, 9, 10, 10, 11, 11, 12, 12, 13, 13]

/-- The loop that copies, flate.myr:262-268. -/
def copyLoop : Nat → Win → Nat → FM Win
  | 0, w, _ => FM.ret w
  | n + 1, w, index => do
    let b ← FM.lift (rdChk w.wbuf index)
    let w ← outb w b
    copyLoop n w ((index + 1) % WinSz)

/-- The reference to `len` bytes from `dst` bytes back, flate.myr:256-268.  The index at 261 is
not negative: `dst` is at most `WinSz`. -/
def copy (w : Win) (len dst : Nat) : FM Win :=
  if dst > w.wlen then FM.err .format
  else copyLoop len w ((WinSz + w.wpos - dst) % WinSz)

/-- A reference, flate.myr:244-268, to the length symbol `257 + s`; also the distance symbol,
which is what the loop tests next. -/
def reference (dsthc : Hufc) (i : In) (w : Win) (s : Nat) : FM (Nat × In × Win) := do
  let e ← FM.lift (rdChk extral s)
  let x ← bits i e
  let b ← FM.lift (rdChk basel s)
  let q ← readcode x.2 dsthc
  let e ← FM.lift (rdChk extrad q.1)
  let y ← bits q.2 e
  let b' ← FM.lift (rdChk based q.1)
  let w ← copy w (b + x.1) (b' + y.1)
  FM.ret (q.1, y.2, w)

/-- `decomp`, flate.myr:211-272. -/
def decomp (lenhc dsthc : Hufc) : Nat → In → Win → FM (In × Win)
  | 0, _, _ => FM.spin
  | fuel + 1, i, w => do
    let p ← readcode i lenhc
    if p.1 < 256 then do
      let w ← outb w (BitVec.ofNat 8 p.1)
      decomp lenhc dsthc fuel p.2 w
    else if p.1 > 256 then do
      let r ← reference dsthc p.2 w (p.1 - 257)
      if r.1 ≠ 256 then decomp lenhc dsthc fuel r.2.1 r.2.2 else FM.ret r.2
    else FM.ret (p.2, w)

/-- Rounds that suffice: every round takes a bit (modelling device). -/
def In.fuel (i : In) : Nat := 8 * i.rd.length + 9

/-- flate.myr:277-280. -/
def coden : List Nat := [16, 17, 18, 0, 8, 7, 9, 6, 10, 5, 11, 4, 12, 3, 13, 2, 14, 1, 15]

/-- The loop over the lengths of the code length code, flate.myr:304-309, with `n` rounds to
go. -/
def clLoop : Nat → Nat → In → List Nat → FM (In × List Nat)
  | 0, _, i, length => FM.ret (i, length)
  | n + 1, c, i, length => do
    let p ← bits i 3
    let k ← FM.lift (rdChk coden c)
    let length ← FM.lift (wrChk length k p.1)
    clLoop n (c + 1) p.2 length

/-- `std.slfill(length[lo:hi], v)`, lib/std/slfill.myr. -/
def fill (l : List Nat) (lo hi v : Nat) : Res (List Nat) := do
  let _ ← slice l lo hi
  pure (l.take lo ++ List.replicate (hi - lo) v ++ l.drop hi)

/-- The loop over the code lengths, flate.myr:311-353. -/
def lensLoop (hc : Hufc) (tot : Nat) : Nat → In → Nat → List Nat → FM (In × List Nat)
  | 0, _, _, _ => FM.spin
  | fuel + 1, i, c, length =>
    if c < tot then do
      let p ← readcode i hc
      if p.1 > 18 then FM.err .format
      else if p.1 < 16 then do
        let length ← FM.lift (wrChk length c p.1)
        lensLoop hc tot fuel p.2 (c + 1) length
      else do
        let e ← FM.lift (rdChk [2, 3, 7] (p.1 - 16))
        let x ← bits p.2 e
        if p.1 = 16 then
          if c = 0 ∨ c + (x.1 + 3) > tot then FM.err .format
          else do
            let v ← FM.lift (rdChk length (c - 1))
            let length ← FM.lift (fill length c (c + (x.1 + 3)) v)
            lensLoop hc tot fuel x.2 (c + (x.1 + 3)) length
        else do
          let nbits := if p.1 = 17 then x.1 + 3 else x.1 + 11
          if c + nbits > tot then FM.err .format
          else do
            let length ← FM.lift (fill length c (c + nbits) 0)
            lensLoop hc tot fuel x.2 (c + nbits) length
    else FM.ret (i, length)

/-- What arrays that are not initialised hold: `length`, flate.myr:282, and `symbol` of
`hufc`, 283 (modelling device).  `symbol` of `st.lenhc` and `st.dsthc` is what earlier blocks
left there; it is modelled by the same unknown contents. -/
structure Junk where
  length : List Nat
  symbol : List Nat

/-- The arrays have their sizes. -/
structure Junk.Sized (J : Junk) : Prop where
  length : J.length.length = MaxLenSyms + MaxDstSyms
  symbol : J.symbol.length = MaxLenSyms

/-- `dynamic`, flate.myr:274-360. -/
def dynamic (J : Junk) (i : In) (w : Win) : FM (In × Win) := do
  let p ← bits i 5
  let nlen := p.1 + 257
  if nlen > 286 then FM.err .format
  else do
    let q ← bits p.2 5
    let ndst := q.1 + 1
    if ndst > 30 then FM.err .format
    else do
      let r ← bits q.2 4
      let ncode := r.1 + 4
      let length ← FM.lift (fill J.length 0 19 0)
      let s ← clLoop ncode 0 r.2 length
      let cl ← FM.lift (slice s.2 0 19)
      let hufc ← FM.lift (mkhufc cl J.symbol)
      let t ← lensLoop hufc (nlen + ndst) (s.1.fuel + 1) s.1 0 s.2
      let e ← FM.lift (rdChk t.2 256)
      if e = 0 then FM.err .format
      else do
        let ll ← FM.lift (slice t.2 0 nlen)
        let lenhc ← FM.lift (mkhufc ll J.symbol)
        let dl ← FM.lift (slice t.2 nlen (nlen + ndst))
        let dsthc ← FM.lift (mkhufc dl J.symbol)
        decomp lenhc dsthc t.1.fuel t.1 w

/-- The lengths of the fixed code for lengths, `__init__`, flate.myr:74-79. -/
def fixedlen : List Nat :=
  List.replicate 144 8 ++ List.replicate 112 9 ++ List.replicate 24 7 ++ List.replicate 8 8

/-- The lengths of the fixed code for distances, `__init__`, flate.myr:82. -/
def fixeddst : List Nat := List.replicate 32 5

/-- A block with fixed codes, flate.myr:379-382; the codes are made in `__init__`, 80 and 83. -/
def fixed (i : In) (w : Win) : FM (In × Win) := do
  let lenhc ← FM.lift (mkhufc fixedlen (List.replicate MaxLenSyms 0))
  let dsthc ← FM.lift (mkhufc fixeddst (List.replicate MaxLenSyms 0))
  decomp lenhc dsthc i.fuel i w

/-- The blocks by type, flate.myr:376-389. -/
def block (J : Junk) (ty : Nat) (i : In) (w : Win) : FM (In × Win) :=
  if ty = 0 then nocomp i w
  else if ty = 1 then fixed i w
  else if ty = 2 then dynamic J i w
  else FM.err .format

/-- The loop of `decode`, flate.myr:371-394. -/
def decodeLoop (J : Junk) : Nat → In → Win → FM (In × Win)
  | 0, _, _ => FM.spin
  | fuel + 1, i, w => do
    let p ← bits i 1
    let q ← bits p.2 2
    let r ← block J q.1 q.2 w
    if p.1 = 1 then FM.ret r else decodeLoop J fuel r.1 r.2

/-- `decode`, flate.myr:362-396; the result is the rest of the input and the output. -/
def decode (J : Junk) (S : List Byte) : FM (In × Win) :=
  decodeLoop J (In.mk S 0 8).fuel ⟨S, 0, 8⟩ ⟨[], 0, 0, List.replicate WinSz 0⟩

end Verif.Flate
