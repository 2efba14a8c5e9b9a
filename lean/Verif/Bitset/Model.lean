import Verif.Prelude

/-!
# Model of the compiler's bit sets, /repo/util/bitset.c

`size_t` is 64 bits wide, so a chunk is a `BitVec 64` and `Sizetbits` is 64
(util/bitset.c:11).  A `Bitset` is its `chunks` array; `nchunks` is the length
of that array.  Simplification: element values and chunk counts are unbounded
naturals (no `size_t` overflow in `nchunks * Sizetbits`), allocation succeeds.
-/

namespace Verif.CBitset

/-- `Sizetbits`, util/bitset.c:11. -/
abbrev W : Nat := 64

/-- `struct Bitset { size_t nchunks; size_t *chunks; }`, util/util.h. -/
abbrev BS := List (BitVec 64)

/-- Growing half of `eqsz`: copy `a` into a zeroed array of `sz` chunks
(util/bitset.c:32-39 for `a`, 41-48 for `b`). -/
def growTo (a : BS) (sz : Nat) : BS :=
  if a.length ≠ sz then a ++ List.replicate (sz - a.length) 0 else a

/-- `eqsz`, util/bitset.c:20-49; returns the new `a` and the new `b`. -/
def eqsz (a b : BS) : BS × BS :=
  let sz := if a.length > b.length then a.length else b.length
  (growTo a sz, growTo b sz)

/-- `mkbs`, util/bitset.c:52-61. -/
def mkbs : BS := [0]

/-- `bsdup` on a non-NULL set, util/bitset.c:74-86. -/
def bsdup (a : BS) : BS := a

/-- `bsclear` on a non-NULL set, util/bitset.c:89-99. -/
def bsclear (a : BS) : BS := a.map fun _ => 0

/-- Inner loop of `bscount` over bit numbers `j < k`, util/bitset.c:109-111. -/
def countBits (c : BitVec 64) : Nat → Nat
  | 0 => 0
  | k + 1 => countBits c k + (if c &&& (1#64 <<< k) ≠ 0 then 1 else 0)

/-- `bscount`, util/bitset.c:102-113. -/
def bscount : BS → Nat
  | [] => 0
  | c :: cs => countBits c W + bscount cs

/-- The table in `firstbit`, util/bitset.c:119-121. -/
def bitsTab : List Nat := [4,0,1,0,2,0,1,0,3,0,1,0,2,0,1,0]

/-- `firstbit`, util/bitset.c:115-142.  The final table access is in bounds by
construction (`b & 0xf`), it is still modelled as a checked read. -/
def firstbit (b : BitVec 64) : Res Nat :=
  let (n, b) := if b &&& 0xffffffff#64 = 0 then (32, b >>> 32) else (0, b)
  let (n, b) := if b &&& 0xffff#64 = 0 then (n + 16, b >>> 16) else (n, b)
  let (n, b) := if b &&& 0xff#64 = 0 then (n + 8, b >>> 8) else (n, b)
  let (n, b) := if b &&& 0xf#64 = 0 then (n + 4, b >>> 4) else (n, b)
  do let k ← rdUB bitsTab (b &&& 0xf#64).toNat
     pure (n + k)

/-- The `while (!b)` loop of `bsiter`, util/bitset.c:174-179.  `b` is the
(masked) current chunk, `rest` the chunks after position `t`. -/
def iterLoop (t : Nat) (b : BitVec 64) (rest : BS) : Res (Option Nat) :=
  if b = 0 then
    match rest with
    | [] => .ok none
    | c :: rest' => iterLoop (t + 1) c rest'
  else do
    let f ← firstbit b
    pure (some (W * t + f))

/-- `bsiter`, util/bitset.c:162-182: `none` is "returns 0", `some e` is
"returns 1 with `*elt = e`". -/
def bsiter (bs : BS) (i : Nat) : Res (Option Nat) :=
  let t := i / W
  match bs.drop t with
  | [] => .ok none                                     -- t >= nchunks
  | b :: rest => iterLoop t (b &&& ~~~((1#64 <<< (i % W)) - 1#64)) rest

/-- `bsmax`, util/bitset.c:188-189. -/
def bsmax (bs : BS) : Nat := bs.length * W

/-- `bsput`, util/bitset.c:191-201. -/
def bsput (bs : BS) (e : Nat) : Res BS :=
  let bs := if e ≥ bs.length * W then
      bs ++ List.replicate (e / W + 1 - bs.length) 0 else bs
  do let c ← rdUB bs (e / W)
     wrUB bs (e / W) (c ||| (1#64 <<< (e % W)))

/-- `bsdel`, util/bitset.c:203-208. -/
def bsdel (bs : BS) (e : Nat) : Res BS :=
  if e < bs.length * W then do
    let c ← rdUB bs (e / W)
    wrUB bs (e / W) (c &&& ~~~(1#64 <<< (e % W)))
  else .ok bs

/-- The loops `for (i = 0; i < a->nchunks; i++) a->chunks[i] = f(a->chunks[i],
b->chunks[i])`; reading past the end of `b` is UB. -/
def loop2 (f : BitVec 64 → BitVec 64 → BitVec 64) : BS → BS → Res BS
  | [], _ => .ok []
  | _ :: _, [] => .ub
  | x :: xs, y :: ys => do
    let r ← loop2 f xs ys
    pure (f x y :: r)

/-- Common shape of the three binary operations: result is (`a`,`b`) after the call. -/
def binop (f : BitVec 64 → BitVec 64 → BitVec 64) (a b : BS) : Res (BS × BS) :=
  let p := eqsz a b
  do let r ← loop2 f p.1 p.2
     pure (r, p.2)

/-- `bsunion`, util/bitset.c:210-218. -/
def bsunion : BS → BS → Res (BS × BS) := binop (· ||| ·)

/-- `bsintersect`, util/bitset.c:220-228. -/
def bsintersect : BS → BS → Res (BS × BS) := binop (· &&& ·)

/-- `bsdiff`, util/bitset.c:239-247. -/
def bsdiff : BS → BS → Res (BS × BS) := binop (fun x y => x &&& ~~~y)

/-- `for` loops returning 0 on the first failing chunk (bseq 256-259,
bsissubset 269-271). -/
def all2 (f : BitVec 64 → BitVec 64 → Bool) : BS → BS → Res Bool
  | [], _ => .ok true
  | _ :: _, [] => .ub
  | x :: xs, y :: ys => if f x y then all2 f xs ys else .ok false

/-- `bsisempty`, util/bitset.c:275-285. -/
def bsisempty : Option BS → Bool
  | none => true
  | some bs => bs.all (· == 0)

/-- `bseq`, util/bitset.c:249-261 (NULL is `none`); also returns the resized sets. -/
def bseq (a b : Option BS) : Res (Bool × Option BS × Option BS) :=
  match a, b with
  | some a, some b =>
    let p := eqsz a b
    do let r ← all2 (· == ·) p.1 p.2
       pure (r, some p.1, some p.2)
  | a, b => .ok (bsisempty a && bsisempty b, a, b)

/-- `bsissubset(set, sub)`, util/bitset.c:263-273. -/
def bsissubset (set sub : BS) : Res (Bool × BS × BS) :=
  let p := eqsz set sub
  do let r ← all2 (fun s b => (b &&& s) == s) p.1 p.2
     pure (r, p.1, p.2)

/-- `bshas`, util/util.h:89-98. -/
def bshas (bs : BS) (e : Nat) : Res Bool :=
  if e ≥ bs.length * W then .ok false
  else do
    let c ← rdUB bs (e / W)
    pure (c &&& (1#64 <<< (e % W)) != 0)

end Verif.CBitset
