import Verif.Regex.Model
import Verif.Utf.Spec

/-!
# What a regular expression means

Written without reference to instructions or threads.
-/

namespace Verif.Regex

/-- The group table: start and end of each group, -1 for unset. -/
abbrev Groups := List (Int × Int)

/-- A group opens at `i`. -/
def opened (g : Groups) (m i : Nat) : Groups := g.modify m fun p => ((i : Int), p.2)

/-- A group closes at `i`. -/
def closed (g : Groups) (m i : Nat) : Groups := g.modify m fun p => (p.1, (i : Int))

/-- At the start of a line. -/
def AtBol (s : List Byte) (i : Nat) : Prop := i = 0 ∨ s[i - 1]? = some 10#8

/-- At the end of a line. -/
def AtEol (s : List Byte) (i : Nat) : Prop := i = s.length ∨ s[i]? = some 10#8

/-- The bytes `bs` stand in `s` at `i`. -/
def Has (s : List Byte) (i : Nat) (bs : List Byte) : Prop := bs <+: s.drop i

/-- `Parse cls s t i g j g'`: `t` matches the bytes `i..j` of `s`, and the groups go from `g` to `g'`.
`cls` is the meaning of a class: the byte strings it stands for. Word boundaries are left out. -/
inductive Parse (cls : List Rng → List Byte → Prop) (s : List Byte) : Ast → Nat → Groups → Nat → Groups → Prop where
  /-- a character -/
  | chr {c i g} : Has s i (Utf.utf8 c.toNat) → Parse cls s (.chr c) i g (i + (Utf.utf8 c.toNat).length) g
  /-- a class -/
  | ranges {rl i g bs} : cls rl bs → Has s i bs → Parse cls s (.ranges rl) i g (i + bs.length) g
  /-- one after the other -/
  | cat {a b i g j g1 k g2} : Parse cls s a i g j g1 → Parse cls s b j g1 k g2 → Parse cls s (.cat a b) i g k g2
  /-- the left side -/
  | altl {a b i g j g1} : Parse cls s a i g j g1 → Parse cls s (.alt a b) i g j g1
  /-- the right side -/
  | altr {a b i g j g1} : Parse cls s b i g j g1 → Parse cls s (.alt a b) i g j g1
  /-- no repetition -/
  | star0 {a r i g} : Parse cls s (.star a r) i g i g
  /-- one more repetition -/
  | star1 {a r i g j g1 k g2} : Parse cls s a i g j g1 → Parse cls s (.star a r) j g1 k g2 → Parse cls s (.star a r) i g k g2
  /-- at least one repetition -/
  | plus {a r i g j g1 k g2} : Parse cls s a i g j g1 → Parse cls s (.star a r) j g1 k g2 → Parse cls s (.plus a r) i g k g2
  /-- nothing -/
  | quest0 {a i g} : Parse cls s (.quest a) i g i g
  /-- something -/
  | quest1 {a i g j g1} : Parse cls s a i g j g1 → Parse cls s (.quest a) i g j g1
  /-- a group -/
  | cap {m a i g j g1} : Parse cls s a i (opened g m i) j g1 → Parse cls s (.cap m a) i g j (closed g1 m j)
  /-- beginning of a line -/
  | bol {i g} : AtBol s i → Parse cls s .bol i g i g
  /-- end of a line -/
  | eol {i g} : AtEol s i → Parse cls s .eol i g i g

/-- What a class should mean: the encodings of the characters in one of its ranges. -/
def InRanges (rl : List Rng) (bs : List Byte) : Prop :=
  ∃ r ∈ rl, ∃ c : Nat, r.1.toNat ≤ c ∧ c ≤ r.2.toNat ∧ bs = Utf.utf8 c

/-- No group set. -/
def Groups.none : Groups := List.replicate 16 (-1, -1)

/-- `t` matches the bytes `i..j` of `s`, with the whole match as group 0. -/
def Matches (s : List Byte) (t : Ast) (i j : Nat) (g : Groups) : Prop :=
  Parse InRanges s (.cap 0 t) i .none j g

/-- May match without consuming. -/
def nullable : Ast → Bool
  | .chr _ => false
  | .ranges _ => false
  | .cat a b => nullable a && nullable b
  | .alt a b => nullable a || nullable b
  | .star _ _ => true
  | .plus a _ => nullable a
  | .quest _ => true
  | .cap _ a => nullable a
  | .bol => true
  | .eol => true
  | .bow => true
  | .eow => true

/-- A character whose encoding the compiler accepts. -/
def okChr (c : Utf.Char32) : Bool := decide (c.toNat < 0x10000)

/-- A range that the compiler translates exactly: ASCII, or one block of 64 characters. -/
def okRng (r : Rng) : Bool :=
  decide (r.1.toNat ≤ r.2.toNat) && decide (r.2.toNat < 0x110000) &&
  (decide (r.2.toNat < 0x80) || (decide (0x80 ≤ r.1.toNat) && decide (r.1.toNat / 64 = r.2.toNat / 64)))

/-- Trees covered by the theorems: no word boundaries, at most 15 groups, no repetition of something that
matches the empty string, and `chr`/`rng` for the characters and ranges allowed. -/
def Ok (rng : Rng → Bool) : Ast → Bool
  | .chr c => okChr c
  | .ranges rl => !rl.isEmpty && rl.all rng
  | .cat a b => Ok rng a && Ok rng b
  | .alt a b => Ok rng a && Ok rng b
  | .star a _ => Ok rng a && !nullable a
  | .plus a _ => Ok rng a && !nullable a
  | .quest a => Ok rng a
  | .cap m a => decide (m < 16) && Ok rng a
  | .bol => true
  | .eol => true
  | .bow => false
  | .eow => false

end Verif.Regex
