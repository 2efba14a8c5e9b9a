import Verif.Utf.Model
import Verif.Chartype.Model
import Verif.Sort.Model

/-!
# Model of `lib/regex`: parser, code generator, virtual machine

Left out: the debug and trace fields, freeing of syntax trees, locations. The tables of the Unicode
classes `\p{…}` (ranges.myr:67-2386) are a parameter.
-/

namespace Verif.Regex
open Verif.Utf (Char32)

/-- A range of characters, both ends included: `char[2]`, types.myr:56. -/
abbrev Rng := Char32 × Char32

/-- `ast`, types.myr:44-64. -/
inductive Ast where
  /-- alternation -/
  | alt (a b : Ast)
  /-- concatenation -/
  | cat (a b : Ast)
  /-- repetition, zero or more; reluctant or not -/
  | star (a : Ast) (reluct : Bool)
  /-- repetition, one or more -/
  | plus (a : Ast) (reluct : Bool)
  /-- optional -/
  | quest (a : Ast)
  /-- a character -/
  | chr (c : Char32)
  /-- a character class -/
  | ranges (rl : List Rng)
  /-- a capture group -/
  | cap (m : Nat) (a : Ast)
  /-- beginning of line -/
  | bol
  /-- end of line -/
  | eol
  /-- beginning of word -/
  | bow
  /-- end of word -/
  | eow
deriving DecidableEq, Repr

/-- `status`, types.myr:4-12, without the text of `Badrange`. -/
inductive Err where
  /-- `Incomplete` -/
  | incomplete
  /-- `Unbalanced` -/
  | unbalanced (c : Char32)
  /-- `Emptyparen` -/
  | emptyparen
  /-- `Badrep` -/
  | badrep (c : Char32)
  /-- `Badrange` -/
  | badrange
  /-- `Badescape` -/
  | badescape (c : Char32)
deriving DecidableEq, Repr

/-- `parseresult`, compile.myr:18-22. -/
inductive PR where
  /-- a tree -/
  | some (t : Ast)
  /-- nothing here -/
  | none
  /-- an error -/
  | err (e : Err)
deriving DecidableEq, Repr

/-- The compile state of a regex, types.myr:18-20. -/
structure St where
  /-- position in the pattern -/
  idx : Nat
  /-- number of groups -/
  nmatch : Nat
deriving DecidableEq, Repr

/-! ## Parser -/

/-- `peekc`, compile.myr:894-896. -/
def peekc (pat : List Byte) (st : St) : Res Char32 := do
  let s ← slice pat st.idx pat.length
  Utf.decode s

/-- `getc`, compile.myr:886-892. -/
def getc (pat : List Byte) (st : St) : Res (Char32 × St) := do
  let c ← peekc pat st
  pure (c, { st with idx := st.idx + Utf.charlen c })

/-- `matchc`, compile.myr:875-884. -/
def matchc (pat : List Byte) (st : St) (c : Char32) : Res (Bool × St) := do
  let chr ← peekc pat st
  if chr ≠ c then pure (false, st) else pure (true, { st with idx := st.idx + Utf.charlen chr })

/-- `std.Maxcharval`, utf.myr:9. -/
def Maxcharval : Char32 := 0x10ffff#32

/-- The loop of `negate`, compile.myr:841-845: the ranges pushed, and `next`. -/
def negateLoop : List Rng → Char32 → Char32 → List Rng × Char32
  | [], _, next => ([], next)
  | r :: rs, start, _ =>
    let p := negateLoop rs (r.2 + 1) r.2
    ((start, r.1 - 1) :: p.1, p.2)

/-- `negate`, compile.myr:834-848. -/
def negate (rng : List Rng) : List Rng :=
  let p := negateLoop rng 0 0
  p.1 ++ [(p.2 + 1, Maxcharval)]

/-- The loop of `merge`, compile.myr:861-871. -/
def mergeLoop : List Rng → Char32 → Char32 → List Rng
  | [], lo, hi => [(lo, hi)]
  | r :: rs, lo, hi => if r.1 ≤ hi + 1 then mergeLoop rs lo r.2 else (lo, hi) :: mergeLoop rs r.1 r.2

/-- `merge`, compile.myr:851-872. -/
def merge : List Rng → List Rng
  | [] => []
  | r :: rs => mergeLoop rs r.1 r.2

/-- The comparison in compile.myr:797-804. -/
def rngcmp (a b : Rng) : Sort.Order :=
  if a.1 < b.1 then .before else if a.1 = b.1 then .equal else .after

/-- The end of `rangematch`, compile.myr:822-831, after the first character. -/
def rangehi (pat : List Byte) (lo : Char32) (st : St) (dash : Bool) : Res (Rng × St) :=
  if dash then do
    let (hi, st) ← getc pat st
    pure (if lo ≤ hi then (lo, hi) else (hi, lo), st)
  else pure ((lo, lo), st)

/-- `rangematch`, compile.myr:817-832: the range pushed. -/
def rangematch (pat : List Byte) (st : St) : Res (Rng × St) := do
  let (lo, st) ← getc pat st
  let (dash, st) ← matchc pat st 45#32
  rangehi pat lo st dash

/-- The loop of `chrclass`, compile.myr:789-791. -/
def classloop (pat : List Byte) : Nat → St → List Rng → Res (List Rng × St)
  | 0, _, _ => .spin
  | fuel + 1, st, rl => do
    let c ← peekc pat st
    if c ≠ 93#32 ∧ pat.length > st.idx then do
      let (r, st) ← rangematch pat st
      classloop pat fuel st (rl ++ [r])
    else pure (rl, st)

/-- The end of `chrclass`, compile.myr:792-814. -/
def classend (pat : List Byte) (neg : Bool) (rl : List Rng) (st : St) : Res (PR × St) := do
  let (b, st) ← matchc pat st 93#32
  if ¬ b then pure (.err (.unbalanced 91#32), st)
  else do
    let sl ← Sort.sort rngcmp rl
    let m := merge sl
    pure (.some (.ranges (if neg then negate m else m)), st)

/-- `chrclass`, compile.myr:775-815. -/
def chrclass (pat : List Byte) (fuel : Nat) (st : St) : Res (PR × St) := do
  let (_, st) ← matchc pat st 91#32
  let (neg, st) ← matchc pat st 94#32
  let (r, st) ← rangematch pat st
  let (rl, st) ← classloop pat fuel st [r]
  classend pat neg rl st

/-- The ASCII tables of ranges.myr:40-65. -/
def tabword : List Rng := [(0x30, 0x39), (0x41, 0x5a), (0x5f, 0x5f), (0x61, 0x7a)]
/-- ranges.myr:47-49. -/
def tabdigit : List Rng := [(0x30, 0x39)]
/-- ranges.myr:51-55. -/
def tabxdigit : List Rng := [(0x30, 0x39), (0x41, 0x46), (0x61, 0x66)]
/-- ranges.myr:57-60. -/
def tabspace : List Rng := [(0x9, 0xd), (0x20, 0x20)]
/-- ranges.myr:62-65. -/
def tabblank : List Rng := [(0x9, 0x9), (0x20, 0x20)]

/-- The value of a hexadecimal digit: `isxdigit` (chartype.myr:1553-1558) and `charval`
(chartype.myr:1673). -/
def hexdig (c : Char32) : Option Char32 :=
  if 48#32 ≤ c ∧ c ≤ 57#32 then some (c - 48#32)
  else if 97#32 ≤ c ∧ c ≤ 102#32 then some (c - 87#32)
  else if 65#32 ≤ c ∧ c ≤ 70#32 then some (c - 55#32)
  else none

/-- The loop of `unichar`, compile.myr:710-713. -/
def uniloop (pat : List Byte) : Nat → St → Char32 → Res (Char32 × St)
  | 0, _, _ => .spin
  | fuel + 1, st, v => do
    let (c, st') ← getc pat st
    match hexdig c with
    | some d => uniloop pat fuel st' (v * 16#32 + d)
    | none => pure (v, st)

/-- `unichar`, compile.myr:702-718. -/
def unichar (pat : List Byte) (fuel : Nat) (st : St) : Res (PR × St) := do
  let (b, st) ← matchc pat st 123#32
  if ¬ b then pure (.err (.badescape 117#32), st)
  else do
    let (c, st) ← uniloop pat fuel st 0
    let (b, st) ← matchc pat st 125#32
    if ¬ b then pure (.err (.badescape 117#32), st) else pure (.some (.chr c), st)

/-- The loop of `unicodeclass`, compile.myr:737-743: the number of bytes of the name. -/
def nameloop (pat : List Byte) : Nat → St → Nat → Res (Nat × St)
  | 0, _, _ => .spin
  | fuel + 1, st, n =>
    if pat.length > st.idx then do
      let (c, st) ← getc pat st
      if c = 125#32 then pure (n, st) else nameloop pat fuel st (n + Utf.charlen c)
    else pure (n, st)

/-- compile.myr:747-772: the class for a name. -/
def classnamed (tabs : List Byte → Option (List Rng)) (neg : Bool) (s : List Byte) (n : Nat) (st : St) : Res (PR × St) := do
  let s ← slice s 0 n
  match tabs s with
  | none => pure (.err .badrange, st)
  | some tab => pure (.some (.ranges (if neg then negate tab else tab)), st)

/-- `unicodeclass`, compile.myr:720-773; `tabs` are the tables by name (lines 749-766). -/
def unicodeclass (tabs : List Byte → Option (List Rng)) (pat : List Byte) (fuel : Nat) (st : St) (neg : Bool) : Res (PR × St) :=
  if pat.length = st.idx then pure (.err .incomplete, st)
  else do
    let s ← slice pat st.idx pat.length
    let (c, st) ← getc pat st
    if c = 123#32 then do
      let s ← slice s 1 s.length
      let (n, st) ← nameloop pat fuel st 0
      classnamed tabs neg s n st
    else classnamed tabs neg s (Utf.charlen c) st

/-- The `match` of `escaped`, compile.myr:660-698, without the cases that go on reading. -/
def escmap (c : Char32) : PR :=
  if c = 100#32 then .some (.ranges tabdigit)
  else if c = 120#32 then .some (.ranges tabxdigit)
  else if c = 115#32 then .some (.ranges tabspace)
  else if c = 119#32 then .some (.ranges tabword)
  else if c = 104#32 then .some (.ranges tabblank)
  else if c = 87#32 then .some (.ranges (negate tabword))
  else if c = 83#32 then .some (.ranges (negate tabspace))
  else if c = 68#32 then .some (.ranges (negate tabdigit))
  else if c = 88#32 then .some (.ranges (negate tabxdigit))
  else if c = 72#32 then .some (.ranges (negate tabblank))
  else if c = 60#32 then .some .bow
  else if c = 62#32 then .some .eow
  else if c = 94#32 then .some (.chr 94#32)
  else if c = 36#32 then .some (.chr 36#32)
  else if c = 46#32 then .some (.chr 46#32)
  else if c = 43#32 then .some (.chr 43#32)
  else if c = 63#32 then .some (.chr 63#32)
  else if c = 42#32 then .some (.chr 42#32)
  else if c = 114#32 then .some (.chr 13#32)
  else if c = 110#32 then .some (.chr 10#32)
  else if c = 98#32 then .some (.chr 8#32)
  else if c = 41#32 then .some (.chr 41#32)
  else .err (.badescape c)

/-- `escaped`, compile.myr:656-700. -/
def escaped (tabs : List Byte → Option (List Rng)) (pat : List Byte) (fuel : Nat) (st : St) : Res (PR × St) := do
  let (c, st) ← getc pat st
  if c = 112#32 then unicodeclass tabs pat fuel st false
  else if c = 80#32 then unicodeclass tabs pat fuel st true
  else if c = 117#32 then unichar pat fuel st
  else pure (escmap c, st)

/-- The end of a group, compile.myr:629-642. -/
def groupend (pat : List Byte) (nocap : Bool) (m : Nat) : PR × St → Res (PR × St)
  | (.some s, st) => do
    let (b, st) ← matchc pat st 41#32
    if b then pure (.some (if nocap then s else .cap m s), st)
    else pure (.err (.unbalanced 40#32), st)
  | (.none, st) => pure (.err .emptyparen, st)
  | (.err e, st) => pure (.err e, st)

/-- The end of `repexpr`, compile.myr:579-593. -/
def repend (pat : List Byte) : PR × St → Res (PR × St)
  | (.some t, st) => do
    let (b, st) ← matchc pat st 42#32
    if b then do
      let (r, st) ← matchc pat st 63#32
      pure (.some (.star t r), st)
    else do
      let (b, st) ← matchc pat st 43#32
      if b then do
        let (r, st) ← matchc pat st 63#32
        pure (.some (.plus t r), st)
      else do
        let (b, st) ← matchc pat st 63#32
        pure (.some (if b then .quest t else t), st)
  | other => pure other

/-- The end of `catexpr`, compile.myr:562-567. -/
def catend (t : Ast) : PR × St → PR × St
  | (.some rhs, st) => (.some (.cat t rhs), st)
  | (.err e, st) => (.err e, st)
  | (.none, st) => (.some t, st)

/-- The end of `altexpr`, compile.myr:538-546. -/
def altend (t : Ast) : PR × St → PR × St
  | (.some rhs, st) => (.some (.alt t rhs), st)
  | (.none, st) => (.err .incomplete, st)
  | (.err e, st) => (.err e, st)

/-- The start of a group, compile.myr:618-628: `none` for the error in line 623. -/
def groupstart (pat : List Byte) (st : St) : Res (Option (Bool × Nat) × St) := do
  let (_, st) ← getc pat st
  let (q, st) ← matchc pat st 63#32
  if q then do
    let (b, st) ← matchc pat st 58#32
    pure (if b then some (true, 0) else none, st)
  else pure (some (false, st.nmatch), { st with nmatch := st.nmatch + 1 })

mutual

/-- `altexpr`, compile.myr:529-552. -/
def altexpr (tabs : List Byte → Option (List Rng)) (pat : List Byte) : Nat → St → Res (PR × St)
  | 0, _ => .spin
  | fuel + 1, st => do
    let r ← catexpr tabs pat fuel st
    match r with
    | (.some t, st) => do
      let (b, st) ← matchc pat st 124#32
      if b then do
        let r ← altexpr tabs pat fuel st
        pure (altend t r)
      else pure (.some t, st)
    | other => pure other

/-- `catexpr`, compile.myr:554-572. -/
def catexpr (tabs : List Byte → Option (List Rng)) (pat : List Byte) : Nat → St → Res (PR × St)
  | 0, _ => .spin
  | fuel + 1, st => do
    let r ← repexpr tabs pat fuel st
    match r with
    | (.some t, st) => do
      let r ← catexpr tabs pat fuel st
      pure (catend t r)
    | other => pure other

/-- `repexpr`, compile.myr:574-594. -/
def repexpr (tabs : List Byte → Option (List Rng)) (pat : List Byte) : Nat → St → Res (PR × St)
  | 0, _ => .spin
  | fuel + 1, st => do
    let r ← baseexpr tabs pat fuel st
    repend pat r

/-- `baseexpr`, compile.myr:596-654. -/
def baseexpr (tabs : List Byte → Option (List Rng)) (pat : List Byte) : Nat → St → Res (PR × St)
  | 0, _ => .spin
  | fuel + 1, st =>
    if pat.length = st.idx then pure (.none, st)
    else do
      let c ← peekc pat st
      if c = 124#32 then pure (.none, st)
      else if c = 41#32 then pure (.none, st)
      else if c = 42#32 then pure (.err (.badrep 42#32), st)
      else if c = 43#32 then pure (.err (.badrep 43#32), st)
      else if c = 63#32 then pure (.err (.badrep 63#32), st)
      else if c = 91#32 then chrclass pat fuel st
      else if c = 94#32 then do
        let (_, st) ← getc pat st
        pure (.some .bol, st)
      else if c = 36#32 then do
        let (_, st) ← getc pat st
        pure (.some .eol, st)
      else if c = 46#32 then do
        let (_, st) ← getc pat st
        pure (.some (.ranges [(0, Maxcharval)]), st)
      else if c = 40#32 then do
        let (g, st) ← groupstart pat st
        match g with
        | none => pure (.err (.badrep 63#32), st)
        | some (nocap, m) => do
          let r ← altexpr tabs pat fuel st
          groupend pat nocap m r
      else if c = 92#32 then do
        let (_, st) ← getc pat st
        if pat.length = st.idx then pure (.err .incomplete, st)
        else escaped tabs pat fuel st
      else do
        let (_, st) ← getc pat st
        pure (.some (.chr c), st)

end

/-- `regexparse`, compile.myr:513-527, with the test of compile.myr:82-85; starts with the state of
`compile`, line 26. The tree and the number of groups. -/
def regexparse (tabs : List Byte → Option (List Rng)) (pat : List Byte) (fuel : Nat) : Res (Except Err (Ast × Nat)) := do
  let r ← altexpr tabs pat fuel { idx := 0, nmatch := 1 }
  match r with
  | (.some t, st) => if pat.length = st.idx then pure (.ok (t, st.nmatch)) else pure (.error .incomplete)
  | (.none, _) => pure (.error .incomplete)
  | (.err e, _) => pure (.error e)

/-! ## Code generator -/

/-- `reinst`, types.myr:93-112. -/
inductive Inst where
  /-- match a byte -/
  | byte (b : Byte)
  /-- match a byte in a range -/
  | range (lo hi : Byte)
  /-- start of a group -/
  | lbra (m : Nat)
  /-- end of a group -/
  | rbra (m : Nat)
  /-- beginning of line -/
  | bol
  /-- end of line -/
  | eol
  /-- beginning of word -/
  | bow
  /-- end of word -/
  | eow
  /-- two ways to go on -/
  | fork (l r : Nat)
  /-- jump -/
  | jmp (d : Nat)
  /-- success -/
  | mtch (id : Nat)
deriving DecidableEq, Repr

/-- The target -1 of an instruction to be replaced, as a 64-bit number. -/
def hole : Nat := 2 ^ 64 - 1

/-- `append`, compile.myr:407-423; the result of the call is the new length. -/
def append (p : List Inst) (i : Inst) : List Inst := p ++ [i]

/-- The bytes of `genchar`, compile.myr:398-402. -/
def genchar (p : List Inst) (c : Char32) : Res (List Inst) := do
  let (n, b) ← Utf.encode (List.replicate 4 0#8) c
  if n > 0 ∧ n < 4 then pure (p ++ (b.take n.toNat).map .byte) else .abort

/-- `rangetrie`, compile.myr:212-216: `ranges` and `link` have the same length and are one list. -/
inductive Trie where
  /-- children with their ranges, oldest first; whether a character ends here -/
  | node (ch : List (Byte × Byte × Trie)) (fin : Bool)

/-- The children. -/
def Trie.ch : Trie → List (Byte × Byte × Trie)
  | .node c _ => c

/-- The field `end`. -/
def Trie.fin : Trie → Bool
  | .node _ f => f

/-- `zalloc` of a trie. -/
def Trie.empty : Trie := .node [] false

/-- `rtinsert`, compile.myr:239-267. -/
def rtinsert : List Byte → List Byte → Trie → Res Trie
  | [], [], t => .ok (.node t.ch true)
  | l :: lo, h :: hi, t =>
    match t.ch.getLast? with
    | some (a, b, c) =>
      if a ≠ l ∨ b ≠ h then do
        let c' ← rtinsert lo hi Trie.empty
        pure (.node (t.ch ++ [(l, h, c')]) t.fin)
      else do
        let c' ← rtinsert lo hi c
        pure (.node (t.ch.dropLast ++ [(a, b, c')]) t.fin)
    | none => do
      let c' ← rtinsert lo hi Trie.empty
      pure (.node (t.ch ++ [(l, h, c')]) t.fin)
  | _, _, _ => .abort

/-- `bound`, compile.myr:197-210: the bytes written; shifts are on bytes. -/
def bound (len : Nat) (fill : Byte) : List Byte :=
  if len = 1 then [0x7f]
  else ((0xff#8 <<< (8 - len)) ||| (fill >>> (len + 1))) :: List.replicate (len - 1) (0x80#8 ||| (fill >>> 2))

/-- The loop of `genranges`, compile.myr:182-187, from size `i`, `n` sizes to go. -/
def boundloop (hi : List Byte) : Nat → Nat → List Byte → Trie → Res Trie
  | 0, _, lo, t => rtinsert lo hi t
  | n + 1, i, lo, t => do
    let t ← rtinsert lo (bound i 0xff) t
    boundloop hi n (i + 1) (bound (i + 1) 0) t

/-- The bytes of a character, compile.myr:180-181. -/
def encbytes (c : Char32) : Res (List Byte) := do
  let (n, b) ← Utf.encode (List.replicate 4 0#8) c
  pure (b.take n.toNat)

/-- The body of the loop of `genranges`, compile.myr:172-188. -/
def insertrange (t : Trie) (r : Rng) : Res Trie := do
  let lo ← encbytes r.1
  let hi ← encbytes r.2
  boundloop hi (hi.length - lo.length) lo.length lo t

/-- The loop of `genranges`. -/
def insertall : List Rng → Trie → Res Trie
  | [], t => .ok t
  | r :: rs, t => do
    let t ← insertrange t r
    insertall rs t

mutual
/-- `rangeprogsize`, compile.myr:307-322. -/
def rangeprogsize : Trie → Nat
  | .node ch fin =>
    (if ch.length = 0 then 0 else 2 * ch.length - 1 + sizes ch) + (if fin then 1 else 0)
/-- The loop in `rangeprogsize`, compile.myr:314-316. -/
def sizes : List (Byte × Byte × Trie) → Nat
  | [] => 0
  | (_, _, t) :: r => rangeprogsize t + sizes r
end

/-- The length of the slice `re.prog` when `n` instructions are in it (compile.myr:410-412: it doubles). -/
def capacity (n : Nat) : Nat := if n = 0 then 0 else Nat.nextPowerOfTwo n

/-- compile.myr:288-295: the instructions for one range. -/
def rangehead (e : Nat) (a b : Byte) (t : Trie) (p : List Inst) : List Inst :=
  let p := append p (.range a b)
  if t.fin then
    if t.ch.length > 0 then append p (.fork (capacity p.length + 1) e) else append p (.jmp e)
  else p

/-- `rangegen`, compile.myr:278-305. -/
def rangegen (e : Nat) : Nat → List (Byte × Byte × Trie) → List Inst → Res (List Inst)
  | 0, _, _ => .spin
  | _ + 1, [], p => .ok p
  | fuel + 1, [(a, b, t)], p => rangegen e fuel t.ch (rangehead e a b t p)
  | fuel + 1, ch, p => do
    let alt := p.length
    let p := append p (.fork hole hole)
    let l0 := p.length
    let p ← rangegen e fuel (ch.take (ch.length / 2)) p
    let l1 := p.length
    let p ← rangegen e fuel (ch.drop (ch.length / 2)) p
    wrChk p alt (.fork l0 l1)

/-- `genranges`, compile.myr:165-195. -/
def genranges (fuel : Nat) (p : List Inst) (rl : List Rng) : Res (List Inst) := do
  let t ← insertall rl Trie.empty
  rangegen (rangeprogsize t + p.length) fuel t.ch p

/-- `genalt`, compile.myr:336-353, given what `gen` does for the two sides. -/
def genalt (gl gr : List Inst → Res (List Inst)) (p : List Inst) : Res (List Inst) := do
  let alt := p.length
  let p := append p (.fork hole hole)
  let l0 := p.length
  let p ← gl p
  let jmp := p.length
  let p := append p (.jmp hole)
  let l1 := p.length
  let p ← gr p
  let l2 := p.length
  let p ← wrChk p alt (.fork l0 l1)
  wrChk p jmp (.jmp l2)

/-- `genstar`, compile.myr:356-378. -/
def genstar (g : List Inst → Res (List Inst)) (reluct : Bool) (p : List Inst) : Res (List Inst) := do
  let l0 := p.length
  let p := append p (.fork hole hole)
  let l1 := p.length
  let p ← g p
  let jmp := p.length
  let p := append p (.jmp hole)
  let l2 := p.length
  let p ← wrChk p l0 (if reluct then .fork l2 l1 else .fork l1 l2)
  wrChk p jmp (.jmp l0)

/-- `genquest`, compile.myr:381-391. -/
def genquest (g : List Inst → Res (List Inst)) (p : List Inst) : Res (List Inst) := do
  let alt := p.length
  let p := append p (.fork hole hole)
  let l0 := p.length
  let p ← g p
  let l1 := p.length
  wrChk p alt (.fork l0 l1)

/-- `gen`, compile.myr:139-163; `fuel` bounds the recursion of `rangegen`. -/
def gen (fuel : Nat) : Ast → List Inst → Res (List Inst)
  | .alt a b, p => genalt (gen fuel a) (gen fuel b) p
  | .cat a b, p => do
    let p ← gen fuel a p
    gen fuel b p
  | .star a r, p => genstar (gen fuel a) r p
  | .plus a r, p => do
    let p ← gen fuel a p
    genstar (gen fuel a) r p
  | .quest a, p => genquest (gen fuel a) p
  | .chr c, p => genchar p c
  | .ranges rl, p => genranges fuel p rl
  | .bol, p => .ok (append p .bol)
  | .eol, p => .ok (append p .eol)
  | .bow, p => .ok (append p .bow)
  | .eow, p => .ok (append p .eow)
  | .cap m a, p => do
    let p ← gen fuel a (append p (.lbra m))
    pure (append p (.rbra m))

/-- One step of `convert`, compile.myr:103-117: a 64-bit word with the opcodes of types.myr:81-91. -/
def encinst : Inst → BitVec 64
  | .byte b => 0x0#64 ||| (b.setWidth 64 <<< 4)
  | .range a b => 0x1#64 ||| (a.setWidth 64 <<< 4) ||| (b.setWidth 64 <<< 16)
  | .lbra m => 0x2#64 ||| (BitVec.ofNat 64 m <<< 4)
  | .rbra m => 0x3#64 ||| (BitVec.ofNat 64 m <<< 4)
  | .bol => 0x4#64
  | .eol => 0x5#64
  | .bow => 0x6#64
  | .eow => 0x7#64
  | .jmp d => 0x9#64 ||| (BitVec.ofNat 64 d <<< 4)
  | .mtch m => 0xa#64 ||| (BitVec.ofNat 64 m <<< 4)
  | .fork a b => 0x8#64 ||| (BitVec.ofNat 64 a <<< 4) ||| (BitVec.ofNat 64 b <<< 34)

/-- A compiled regex: the code and the number of groups. -/
structure Prog where
  /-- `re.code` -/
  code : List (BitVec 64)
  /-- `re.nmatch` -/
  nmatch : Nat

/-- The instructions of compile.myr:87-90. -/
def genall (fuel : Nat) (t : Ast) : Res (List Inst) := do
  let p ← gen fuel t (append [] (.lbra 0))
  pure (append (append p (.rbra 0)) (.mtch 0))

/-- `compile`, compile.myr:25-27 and `regexcompile`, compile.myr:73-97. `convert` also converts the
unused rest of the slice `re.prog`, which nothing reads; this is left out. -/
def compile (tabs : List Byte → Option (List Rng)) (fuel : Nat) (pat : List Byte) : Res (Except Err Prog) := do
  let r ← regexparse tabs pat fuel
  match r with
  | .error e => pure (.error e)
  | .ok (t, n) => do
    let p ← genall fuel t
    pure (.ok { code := p.map encinst, nmatch := n })

/-! ## Virtual machine -/

/-- `rethread`, types.myr:66-75; the flags are outcomes of `step`. -/
structure Thr where
  /-- instruction pointer -/
  ip : Nat
  /-- start and end of the groups; -1 for none -/
  mg : List (Int × Int)
deriving DecidableEq, Repr

/-- What one step did to the thread. -/
inductive Out where
  /-- consumed a byte -/
  | alive (t : Thr)
  /-- died -/
  | dead
  /-- matched -/
  | matched (t : Thr)
  /-- did not consume; maybe a new thread -/
  | cont (t : Thr) (new : Option Thr)

/-- `iswordchar`, interp.myr:497-502. -/
def iswordchar (s : List Byte) : Res Bool := do
  let c ← Utf.decode s
  let a ← Chartype.isalpha c.toNat
  pure (a || (decide (48#32 ≤ c) && decide (c ≤ 57#32)) || c == 95#32)

/-- The loop of `prevchar`, interp.myr:490-493. -/
def prevloop (s : List Byte) : Nat → Res Nat
  | 0 => .ok 0
  | i + 1 => do
    let b ← rdChk s (i + 1)
    if b ≥ 0x80#8 then prevloop s i else pure (i + 1)

/-- `prevchar`, interp.myr:488-495. -/
def prevchar (s : List Byte) (i : Nat) : Res (List Byte) :=
  if i = 0 then .abort
  else do
    let k ← prevloop s (i - 1)
    slice s k s.length

/-- interp.myr:392: the condition of a word start. -/
def isbow (str : List Byte) (i : Nat) : Res Bool := do
  let s ← slice str i str.length
  let w ← iswordchar s
  if w then
    if i = 0 then pure true
    else do
      let p ← prevchar str i
      let v ← iswordchar p
      pure (!v)
  else pure false

/-- interp.myr:399-402: the condition of a word end; the second test follows the first. -/
def iseow (str : List Byte) (i : Nat) : Res Bool := do
  let first ← (if i = str.length then do
      let p ← prevchar str i
      iswordchar p
    else pure false)
  if first then pure true
  else if i > 0 then do
    let s ← slice str i str.length
    let w ← iswordchar s
    if w then pure false
    else do
      let p ← prevchar str i
      iswordchar p
  else pure false

/-- `thr.mgroup[m][0] = re.strp`, interp.myr:369. -/
def setlo (mg : List (Int × Int)) (m : Nat) (v : Int) : Res (List (Int × Int)) := do
  let p ← rdChk mg m
  wrChk mg m (v, p.2)

/-- `thr.mgroup[m][1] = re.strp`, interp.myr:374. -/
def sethi (mg : List (Int × Int)) (m : Nat) (v : Int) : Res (List (Int × Int)) := do
  let p ← rdChk mg m
  wrChk mg m (p.1, v)

/-- A test that lets the thread go on, interp.myr:377-407. -/
def anchor (ok : Bool) (t : Thr) : Out := if ok then .cont { t with ip := t.ip + 1 } none else .dead

/-- `step`, interp.myr:312-412. `curip` is -1 or the instruction the thread started at. -/
def step (code : List (BitVec 64)) (str : List Byte) (i : Nat) (t : Thr) (curip : Int) : Res Out := do
  let inst ← rdChk code t.ip
  let op := inst &&& 0xf#64
  if op = 0x1#64 then
    let lo : Byte := (inst >>> 4).setWidth 8
    let hi : Byte := (inst >>> 16).setWidth 8
    if i < str.length then do
      let c ← rdChk str i
      pure (if lo > c ∨ hi < c then .dead else .alive { t with ip := t.ip + 1 })
    else pure .dead
  else if op = 0x0#64 then
    let b : Byte := (inst >>> 4).setWidth 8
    if i < str.length then do
      let c ← rdChk str i
      pure (if b ≠ c then .dead else .alive { t with ip := t.ip + 1 })
    else pure .dead
  else if op = 0x8#64 then
    let lip := ((inst >>> 4) &&& 0x3fffffff#64).toNat
    let rip := ((inst >>> 34) &&& 0x3fffffff#64).toNat
    pure (.cont { t with ip := lip } (if (rip : Int) ≠ curip then some { ip := rip, mg := t.mg } else none))
  else if op = 0x9#64 then pure (.cont { t with ip := (inst >>> 4).toNat } none)
  else if op = 0xa#64 then pure (.matched t)
  else if op = 0x2#64 then do
    let mg ← setlo t.mg (inst >>> 4).toNat i
    pure (.cont { ip := t.ip + 1, mg := mg } none)
  else if op = 0x3#64 then do
    let mg ← sethi t.mg (inst >>> 4).toNat i
    pure (.cont { ip := t.ip + 1, mg := mg } none)
  else if op = 0x4#64 then
    if i = 0 then pure (anchor true t)
    else do
      let c ← rdChk str (i - 1)
      pure (anchor (c == 10#8) t)
  else if op = 0x5#64 then
    if i = str.length then pure (anchor true t)
    else do
      let c ← rdChk str i
      pure (anchor (c == 10#8) t)
  else if op = 0x6#64 then do
    let b ← isbow str i
    pure (anchor b t)
  else if op = 0x7#64 then do
    let b ← iseow str i
    pure (anchor b t)
  else .abort

/-- How a thread stopped. -/
inductive Kind where
  /-- consumed a byte -/
  | alive
  /-- died -/
  | dead
  /-- matched -/
  | matched
deriving DecidableEq

/-- The inner stepping loop, interp.myr:234-237: how the thread ended, the run queue and `nthr`
(`mkthread` adds one, `die` and `finish` subtract one). -/
def thread (code : List (BitVec 64)) (str : List Byte) (i : Nat) (start : Int) :
    Nat → Int → Thr → List Thr → Int → Res (Kind × Thr × List Thr × Int)
  | 0, _, _, _, _ => .spin
  | fuel + 1, curip, t, q, n => do
    let o ← step code str i t curip
    match o with
    | .alive t => pure (.alive, t, q, n)
    | .dead => pure (.dead, t, q, n - 1)
    | .matched t => pure (.matched, t, q, n - 1)
    | .cont t none => thread code str i start fuel start t q n
    | .cont t (some t') => thread code str i start fuel start t (t' :: q) (n + 1)

/-- `re.expiredtail`: nothing, the last element of `re.expired`, or memory freed by `cleanup`. -/
inductive Tail where
  /-- nil -/
  | nil
  /-- the last expired thread -/
  | last
  /-- freed -/
  | stale
deriving DecidableEq

/-- The state of `run`. -/
structure VM where
  /-- `re.runq` -/
  runq : List Thr
  /-- `re.expired` -/
  expired : List Thr
  /-- `re.expiredtail` -/
  tail : Tail
  /-- `states` (a bit set, see C04) -/
  states : List Nat
  /-- `bestmatch` -/
  best : Option Thr
  /-- `re.nthr` -/
  nthr : Int
  /-- `re.strp` -/
  strp : Nat

/-- interp.myr:268-277: the thread survives. -/
def expire (vm : VM) (t : Thr) : Res VM :=
  match vm.tail with
  | .stale => .ub
  | _ => .ok { vm with states := t.ip :: vm.states, expired := vm.expired ++ [t], tail := .last }

/-- What the loop over the run queue ended with. -/
inductive Stop where
  /-- the queue is empty -/
  | next (vm : VM)
  /-- `goto done` -/
  | done (vm : VM)

/-- The loop over the run queue, interp.myr:217-280. -/
def inner (code : List (BitVec 64)) (str : List Byte) (whole : Bool) : Nat → VM → Res Stop
  | 0, _ => .spin
  | fuel + 1, vm =>
    match vm.runq with
    | [] => .ok (.next vm)
    | t :: q => do
      let (k, t, q, n) ← thread code str vm.strp t.ip fuel (-1) t q vm.nthr
      let dup := decide (t.ip ∈ vm.states)
      let n := if dup ∧ k ≠ .dead then n - 1 else n
      let k := if dup then .dead else k
      let vm := { vm with runq := q, nthr := n }
      match k with
      | .dead => inner code str whole fuel vm
      | .matched =>
        if vm.strp = str.length then pure (.done { vm with best := some t })
        else if ¬ whole then inner code str whole fuel { vm with best := some t }
        else inner code str whole fuel vm
      | .alive => do
        let vm ← expire vm t
        inner code str whole fuel vm

/-- The outer loop, interp.myr:216-286. -/
def outer (code : List (BitVec 64)) (str : List Byte) (whole : Bool) : Nat → VM → Res VM
  | 0, _ => .spin
  | fuel + 1, vm =>
    if vm.nthr > 0 then do
      let s ← inner code str whole fuel vm
      match s with
      | .done vm => pure vm
      | .next vm =>
        outer code str whole fuel
          { vm with states := [], runq := vm.expired, expired := [], tail := .nil, strp := vm.strp + 1 }
    else .ok vm

/-- What a regex keeps between two runs. -/
structure Obj where
  /-- `re.nthr` -/
  nthr : Int
  /-- `re.expiredtail` -/
  tail : Tail
deriving DecidableEq

/-- A regex as `compile` returns it. -/
def Obj.fresh : Obj := { nthr := 0, tail := .nil }

/-- `run`, interp.myr:183-290: groups from 16 on are out of range in lines 212-215. -/
def run (p : Prog) (fuel : Nat) (o : Obj) (str : List Byte) (whole : Bool) : Res VM :=
  if p.nmatch > 16 then .abort
  else outer p.code str whole fuel
    { runq := [{ ip := 0, mg := List.replicate 16 (-1, -1) }], expired := [], tail := o.tail, states := [], best := none,
      nthr := o.nthr + 1, strp := 0 }

/-- `cleanup`, interp.myr:124-134: the list `re.expired` is freed, `re.expiredtail` is kept. -/
def cleanup (vm : VM) : Obj := { nthr := 0, tail := if vm.tail = .nil then .nil else .stale }

/-- `iexec`, interp.myr:35-37 with `getidxmatches`, 162-174: the groups, and the regex afterwards. -/
def iexec (p : Prog) (fuel : Nat) (o : Obj) (str : List Byte) : Res (Option (List (Int × Int)) × Obj) := do
  let vm ← run p fuel o str true
  match vm.best with
  | none => pure (none, { nthr := vm.nthr, tail := vm.tail })
  | some t => pure (some (t.mg.take p.nmatch), cleanup vm)

/-- `getmatches`, interp.myr:150-157: the strings of the groups of `str`; an element that is never written
(line 151 allocates without initialising) is `none`. -/
def getmatches (str : List Byte) : List (Int × Int) → Res (List (Option (List Byte)))
  | [] => .ok []
  | g :: gs =>
    if g.1 ≠ -1 ∧ g.2 ≠ -1 then do
      let s ← slice str g.1.toNat g.2.toNat
      let rest ← getmatches str gs
      pure (some s :: rest)
    else do
      let rest ← getmatches str gs
      pure (none :: rest)

/-- `exec`, interp.myr:31-33. -/
def exec (p : Prog) (fuel : Nat) (o : Obj) (str : List Byte) : Res (Option (List (Option (List Byte))) × Obj) := do
  let (r, o) ← iexec p fuel o str
  match r with
  | none => pure (none, o)
  | some g => do
    let l ← getmatches str g
    pure (some l, o)

/-- The loop of `search` and `isearch`, interp.myr:42-47, 54-59, from position `i` on: the part of the string
where the match is, with its groups; and the regex after `cleanup`. -/
def findloop (p : Prog) (fuel : Nat) (str : List Byte) : Nat → Nat → Obj → Res (Option (List Byte × List (Int × Int)) × Obj)
  | 0, _, _ => .spin
  | k + 1, i, o =>
    if i < str.length then do
      let s ← slice str i str.length
      let vm ← run p fuel o s false
      match vm.best with
      | none => findloop p fuel str k (i + 1) { nthr := vm.nthr, tail := vm.tail }
      | some t => pure (some (s, t.mg.take p.nmatch), cleanup vm)
    else pure (none, o)

/-- `isearch`, interp.myr:51-61. -/
def isearch (p : Prog) (fuel : Nat) (o : Obj) (str : List Byte) : Res (Option (List (Int × Int)) × Obj) := do
  let (r, o) ← findloop p fuel str (str.length + 1) 0 o
  pure (r.map Prod.snd, o)

/-- `search`, interp.myr:39-49; the groups are parts of `re.str`, which is the argument of `run`. -/
def search (p : Prog) (fuel : Nat) (o : Obj) (str : List Byte) : Res (Option (List (Option (List Byte))) × Obj) := do
  let (r, o) ← findloop p fuel str (str.length + 1) 0 o
  match r with
  | none => pure (none, o)
  | some (s, g) => do
    let l ← getmatches s g
    pure (some l, o)

/-- The loop of `dosubst`, interp.myr:113-119, over the groups from 1 on and the replacements: the bytes put
and the offset after them. -/
def substloop (str : List Byte) : List (Int × Int) → List (List Byte) → Int → Res (List Byte × Int)
  | [], _, off => .ok ([], off)
  | g :: gs, ss, off =>
    if g.1 ≠ -1 ∧ g.2 ≠ -1 then do
      let s ← slice str off.toNat g.1.toNat
      let r ← rdChk ss 0
      let (rest, off) ← substloop str gs (ss.drop 1) g.2
      pure (s ++ r ++ rest, off)
    else substloop str gs (ss.drop 1) off

/-- `dosubst`, interp.myr:106-122, for a match. -/
def dosubst (nmatch : Nat) (mg : List (Int × Int)) (str : List Byte) (subst : List (List Byte)) : Res (List Byte) := do
  let (out, off) ← substloop str ((mg.take nmatch).drop 1) subst 0
  let s ← slice str off.toNat str.length
  pure (out ++ s)

/-- `sub`, interp.myr:63-71 with `sbsub`, 73-76: the result, and the regex afterwards (there is no `cleanup`). -/
def sub (p : Prog) (fuel : Nat) (o : Obj) (str : List Byte) (subst : List (List Byte)) : Res (Option (List Byte) × Obj) :=
  if p.nmatch ≠ subst.length + 1 then .abort
  else do
    let vm ← run p fuel o str true
    match vm.best with
    | none => pure (none, { nthr := vm.nthr, tail := vm.tail })
    | some t => do
      let r ← dosubst p.nmatch t.mg str subst
      pure (some r, { nthr := vm.nthr, tail := vm.tail })

/-- The loop of `sbsuball`, interp.myr:91-102; the outer fuel counts rounds. -/
def suballloop (p : Prog) (vmfuel : Nat) (str : List Byte) (subst : List (List Byte)) : Nat → Obj → Nat → List Byte → Res (List Byte)
  | 0, _, _, _ => .spin
  | fuel + 1, o, i, sb =>
    if i < str.length then do
      let s ← slice str i str.length
      let vm ← run p vmfuel o s false
      match vm.best with
      | none => do
        let b ← rdChk str i
        suballloop p vmfuel str subst fuel (cleanup vm) (i + 1) (sb ++ [b])
      | some t => do
        let g ← rdChk t.mg 0
        let len := g.2.toNat
        let m ← slice str i (len + i)
        let r ← dosubst p.nmatch t.mg m subst
        suballloop p vmfuel str subst fuel (cleanup vm) (i + len) (sb ++ r)
    else .ok sb

/-- `suball`, interp.myr:78-84 with `sbsuball`, 86-103. -/
def suball (p : Prog) (vmfuel fuel : Nat) (o : Obj) (str : List Byte) (subst : List (List Byte)) : Res (List Byte) :=
  if p.nmatch ≠ subst.length + 1 then .abort else suballloop p vmfuel str subst fuel o 0 []

end Verif.Regex
