import Verif.Bio.Model

/-!
# What buffered files promise

Reading calls are explained on the *stream* alone: the bytes not yet handed to the caller.
Nothing here speaks of buffers, of the way the source cuts its data into pieces, or of the
functions of the model (decoding a character is `Utf.decode`, whose meaning is C05).
-/

namespace Verif.Bio

open Verif.Utf

/-- A reading call (API of bio.myr:9-38 and geti.myr:6-18). -/
inductive ROp where
  | read (n : Nat)
  | getb | peekb | getc | peekc
  | readto (d : List Byte)
  | readterm (d : List Byte)
  | skipto (d : List Byte)
  | readln
  | skipspace
  | getle (n : Nat)
  | getbe (n : Nat)
  deriving DecidableEq, Repr

/-- What a call hands to its caller (specification device). -/
inductive Out where
  | err (e : Err)
  | bytes (l : List Byte)
  | byte (b : Byte)
  | chr (c : Char32)
  | num (v : BitVec 64)
  | flag (b : Bool)
  deriving DecidableEq, Repr

/-- Index of the first place where `d` stands in a string (specification). -/
def firstIdx (d : List Byte) : List Byte → Option Nat
  | [] => if d = [] then some 0 else none
  | b :: t => if d.isPrefixOf (b :: t) then some 0 else (firstIdx d t).map (· + 1)

/-- `\r` or `\n` (specification). -/
def isNl (b : Byte) : Bool := b = 0x0d#8 || b = 0x0a#8

/-- The number of bytes a character takes according to its first byte; 1 for bytes that
start no character (specification, RFC 3629). -/
def need (b : Byte) : Nat :=
  if b.toNat < 0xc0 then 1 else if b.toNat < 0xe0 then 2 else if b.toNat < 0xf0 then 3
  else if b.toNat < 0xf8 then 4 else 1

/-- The first character of a stream, if it is all there (specification; `Utf.decode` is the
decoder of C05). -/
def firstChar (P : List Byte) : Option Char32 :=
  match P with
  | [] => none
  | b :: _ => if P.length < need b then none else
    match decode P with
    | .ok c => some c
    | _ => none

/-- Dropping leading white space (specification); the flag says whether something else
follows. -/
def dropSpaces (isspace : Char32 → Bool) : Nat → List Byte → Bool × List Byte
  | 0, P => (false, P)
  | n + 1, P =>
    match firstChar P with
    | none => (false, P)
    | some c => if isspace c then dropSpaces isspace n (P.drop (charlen c)) else (true, P)

/-- The rest of a stream after a line: one `\n`, one `\r` or one `\r\n` goes with the line
(specification). -/
def afterLine : List Byte → List Byte
  | [] => []
  | [_] => []
  | b :: c :: t => if b = 0x0d#8 ∧ c = 0x0a#8 then t else c :: t

/-- Value of bytes, least significant first (specification). -/
def leVal : List Byte → Nat
  | [] => 0
  | b :: t => b.toNat + 256 * leVal t

/-- What a call must return and what must be left of the stream `P` (specification). -/
def spec (isspace : Char32 → Bool) : ROp → List Byte → Out × List Byte
  | .read n, P =>
    if n = 0 then (.bytes [], P) else if P = [] then (.err .eof, []) else (.bytes (P.take n), P.drop n)
  | .getb, P => match P with
    | [] => (.err .eof, [])
    | b :: t => (.byte b, t)
  | .peekb, P => match P with
    | [] => (.err .eof, [])
    | b :: _ => (.byte b, P)
  | .getc, P => match firstChar P with
    | none => (.err .eof, P)
    | some c => (.chr c, P.drop (charlen c))
  | .peekc, P => match firstChar P with
    | none => (.err .eof, P)
    | some c => (.chr c, P)
  | .readto d, P => if d = [] then (.bytes [], P) else match firstIdx d P with
    | some k => (.bytes (P.take k), P.drop (k + d.length))
    | none => if P = [] then (.err .eof, []) else (.bytes P, [])
  | .readterm d, P => if d = [] then (.bytes [], P) else match firstIdx d P with
    | some k => (.bytes (P.take (k + d.length)), P.drop (k + d.length))
    | none => if P = [] then (.err .eof, []) else (.bytes P, [])
  | .skipto d, P => if d = [] then (.flag true, P) else match firstIdx d P with
    | some k => (.flag true, P.drop (k + d.length))
    | none => (.flag false, [])
  | .readln, P =>
    if P = [] then (.err .eof, [])
    else (.bytes (P.takeWhile (fun b => !isNl b)), afterLine (P.dropWhile (fun b => !isNl b)))
  | .skipspace, P => let q := dropSpaces isspace P.length P; (.flag q.1, q.2)
  | .getle n, P =>
    if P.length < n then (.err .eof, P) else (.num (BitVec.ofNat 64 (leVal (P.take n))), P.drop n)
  | .getbe n, P =>
    if P.length < n then (.err .eof, P)
    else (.num (BitVec.ofNat 64 (leVal (P.take n).reverse)), P.drop n)

/-- A history of calls explained on the stream alone (specification). -/
def specRun (isspace : Char32 → Bool) : List ROp → List Byte → List Out × List Byte
  | [], P => ([], P)
  | op :: ops, P =>
    let q := spec isspace op P
    let r := specRun isspace ops q.2
    (q.1 :: r.1, r.2)

/-- Dispatch of a result that may be an error (specification device). -/
def out {α : Type} (k : α → Out) : Except Err α → Out
  | .ok a => k a
  | .error e => .err e

/-- Performing a call on the model (specification device). -/
def perform (isspace : Char32 → Bool) : ROp → Rd → Res (Rd × Out)
  | .read n, f => (read f n).map fun p => (p.1, out .bytes p.2)
  | .getb, f => (getb f).map fun p => (p.1, out .byte p.2)
  | .peekb, f => (peekb f).map fun p => (p.1, out .byte p.2)
  | .getc, f => (getc f).map fun p => (p.1, out .chr p.2)
  | .peekc, f => (peekc f).map fun p => (p.1, out .chr p.2)
  | .readto d, f => (readto f d).map fun p => (p.1, out .bytes p.2)
  | .readterm d, f => (readterm f d).map fun p => (p.1, out .bytes p.2)
  | .skipto d, f => (skipto f d).map fun p => (p.1, .flag p.2)
  | .readln, f => (readln f).map fun p => (p.1, out .bytes p.2)
  | .skipspace, f => (skipspace isspace f).map fun p => (p.1, .flag p.2)
  | .getle n, f => (getle f n).map fun p => (p.1, out .num p.2)
  | .getbe n, f => (getbe f n).map fun p => (p.1, out .num p.2)

/-- Performing a history of calls on the model (specification device). -/
def performs (isspace : Char32 → Bool) : List ROp → Rd → Res (Rd × List Out)
  | [], f => .ok (f, [])
  | op :: ops, f => do
    let p ← perform isspace op f
    let q ← performs isspace ops p.1
    pure (q.1, p.2 :: q.2)

/-- Precondition of a call on a file with a buffer of `B` bytes: delimiters must be shorter
than the buffer (16 KiB, else `ensureread` stops the program), integers have 1, 2, 4 or 8
bytes. -/
def Fits (B : Nat) : ROp → Prop
  | .readto d => d.length < B
  | .readterm d => d.length < B
  | .skipto d => d.length < B
  | .getle n => n = 1 ∨ n = 2 ∨ n = 4 ∨ n = 8
  | .getbe n => n = 1 ∨ n = 2 ∨ n = 4 ∨ n = 8
  | _ => True

/-- A source that only cuts its data into pieces: no call fails, none returns 0 before the
end. -/
def Src.Honest (s : Src) : Prop := ∀ a ∈ s.plan, ∃ k, 0 < k ∧ a = .give k

/-- Bytes that decode to `\n` although they are not `\n`: an overlong encoding (the decoder
does not check continuation bytes either, so the upper two bits of the later bytes are
free). -/
def OverlongNl (l : List Byte) : Prop :=
  (∃ y t, l = 0xc0#8 :: y :: t ∧ y.toNat % 64 = 10) ∨
  (∃ y z t, l = 0xe0#8 :: y :: z :: t ∧ y.toNat % 64 = 0 ∧ z.toNat % 64 = 10) ∨
  (∃ y z w t, l = 0xf0#8 :: y :: z :: w :: t ∧ y.toNat % 64 = 0 ∧ z.toNat % 64 = 0 ∧
    w.toNat % 64 = 10)

/-- No `\r` is followed by an overlong encoding of `\n`. -/
def CrSafe (S : List Byte) : Prop := ∀ a b, S = a ++ 0x0d#8 :: b → ¬ OverlongNl b

/-- How the bytes `cs` that left the stream during a call show in its result
(specification).  For the calls that search a delimiter an error other than the end of the
file says nothing about `cs`. -/
def Shows : ROp → Out → List Byte → Prop
  | .read n, .bytes l, cs => cs = l ∧ l.length ≤ n
  | .read _, .err _, cs => cs = []
  | .getb, .byte b, cs => cs = [b]
  | .getb, .err _, cs => cs = []
  | .peekb, .byte _, cs => cs = []
  | .peekb, .err _, cs => cs = []
  | .getc, .chr c, cs => cs.length = charlen c ∧ ∃ t, decode (cs ++ t) = .ok c
  | .getc, .err _, cs => cs = []
  | .peekc, .chr _, cs => cs = []
  | .peekc, .err _, cs => cs = []
  | .readto d, .bytes l, cs => cs = l ∨ cs = l ++ d
  | .readto _, .err e, cs => e = .eof → cs = []
  | .readterm d, .bytes l, cs => cs = l ∧ (∀ k, firstIdx d l = some k → k + d.length = l.length)
  | .readterm _, .err e, cs => e = .eof → cs = []
  | .skipto _, .flag _, _ => True
  | .readln, .bytes l, cs => (∀ b ∈ l, isNl b = false) ∧
    (cs = l ∨ cs = l ++ [0x0a#8] ∨ cs = l ++ [0x0d#8] ∨ cs = l ++ [0x0d#8, 0x0a#8])
  | .readln, .err e, cs => e = .eof → cs = []
  | .skipspace, .flag _, _ => True
  | .getle n, .num v, cs => cs.length = n ∧ v = BitVec.ofNat 64 (leVal cs)
  | .getle _, .err _, cs => cs = []
  | .getbe n, .num v, cs => cs.length = n ∧ v = BitVec.ofNat 64 (leVal cs.reverse)
  | .getbe _, .err _, cs => cs = []
  | _, _, _ => False

/-! ## Writing -/

/-- A writing call (API of bio.myr:12-33 and puti.myr:6-18). -/
inductive WOp where
  | write (bs : List Byte)
  | putb (b : Byte)
  | putc (c : Char32)
  | putle (v : BitVec 64) (n : Nat)
  | putbe (v : BitVec 64) (n : Nat)
  | flush
  deriving DecidableEq, Repr

/-- The `n` low bytes of a number, least significant first (specification). -/
def lowBytes (v : Nat) : Nat → List Byte
  | 0 => []
  | n + 1 => BitVec.ofNat 8 (v % 256) :: lowBytes (v / 256) n

/-- The bytes a call adds to the output (specification; `utf8` is RFC 3629, C05). -/
def adds (utf8 : Nat → List Byte) : WOp → List Byte
  | .write bs => bs
  | .putb b => [b]
  | .putc c => utf8 c.toNat
  | .putle v n => lowBytes v.toNat n
  | .putbe v n => (lowBytes v.toNat n).reverse
  | .flush => []

/-- Performing a writing call on the model; the flag tells whether the call reported
success (specification device). -/
def wperform : WOp → Wr → Res (Wr × Bool)
  | .write bs, f => (write f bs).map fun p => (p.1, p.2.isOk)
  | .putb b, f => (putb f b).map fun p => (p.1, p.2.isOk)
  | .putc c, f => (putc f c).map fun p => (p.1, p.2.isOk)
  | .putle v n, f => (putle f v n).map fun p => (p.1, p.2.isOk)
  | .putbe v n, f => (putbe f v n).map fun p => (p.1, p.2.isOk)
  | .flush, f => flush f

/-- Performing a history of writing calls (specification device). -/
def wperforms : List WOp → Wr → Res (Wr × List Bool)
  | [], f => .ok (f, [])
  | op :: ops, f => do
    let p ← wperform op f
    let q ← wperforms ops p.1
    pure (q.1, p.2 :: q.2)

/-- Precondition of a writing call: characters are code points, integers have 1, 2, 4 or 8
bytes. -/
def WFits : WOp → Prop
  | .putc c => c.toNat < 0x110000
  | .putle _ n => n = 1 ∨ n = 2 ∨ n = 4 ∨ n = 8
  | .putbe _ n => n = 1 ∨ n = 2 ∨ n = 4 ∨ n = 8
  | _ => True

/-- A sink that accepts at least one byte on each call and never fails. -/
def Snk.Honest (s : Snk) : Prop := ∀ a ∈ s.plan, ∃ k, 0 < k ∧ a = .give k

end Verif.Bio
