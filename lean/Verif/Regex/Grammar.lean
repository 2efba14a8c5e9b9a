import Verif.Regex.Spec

/-!
# The syntax of regular expressions

Which strings of characters are regular expressions, and which tree each one stands for; after the manual
page myr-regex.3. Left out: `\p{…}`, `\P{…}`, `\u{…}`; and bracket expressions are limited to those that
the compiler translates correctly.
-/

namespace Verif.Regex
open Verif.Utf (Char32)

/-- A character that stands for itself: not one of `| ) * + ? [ ^ $ . ( \`. -/
def plain (c : Char32) : Prop :=
  c.toNat < 0x110000 ∧ c.toNat ∉ [124, 41, 42, 43, 63, 91, 94, 36, 46, 40, 92]

/-- The escapes `\c`. -/
def escapes : List (Nat × Ast) :=
  [ (100, .ranges [(0x30, 0x39)]),                                              -- \d
    (120, .ranges [(0x30, 0x39), (0x41, 0x46), (0x61, 0x66)]),                  -- \x
    (115, .ranges [(0x9, 0xd), (0x20, 0x20)]),                                  -- \s
    (119, .ranges [(0x30, 0x39), (0x41, 0x5a), (0x5f, 0x5f), (0x61, 0x7a)]),    -- \w
    (104, .ranges [(0x9, 0x9), (0x20, 0x20)]),                                  -- \h
    (68, .ranges [(0, 0x2f), (0x3a, 0x10ffff)]),                                -- \D
    (88, .ranges [(0, 0x2f), (0x3a, 0x40), (0x47, 0x60), (0x67, 0x10ffff)]),    -- \X
    (83, .ranges [(0, 0x8), (0xe, 0x1f), (0x21, 0x10ffff)]),                    -- \S
    (87, .ranges [(0, 0x2f), (0x3a, 0x40), (0x5b, 0x5e), (0x60, 0x60), (0x7b, 0x10ffff)]), -- \W
    (72, .ranges [(0, 0x8), (0xa, 0x1f), (0x21, 0x10ffff)]),                    -- \H
    (60, .bow), (62, .eow),
    (94, .chr 94), (36, .chr 36), (46, .chr 46), (43, .chr 43), (63, .chr 63), (42, .chr 42), (41, .chr 41),
    (114, .chr 13), (110, .chr 10), (98, .chr 8) ]

/-- An item of a bracket expression: a character, or two with a dash between them. -/
structure Item where
  /-- the first character -/
  fst : Char32
  /-- the one after the dash -/
  snd : Option Char32

/-- How an item is written. -/
def Item.chars (it : Item) : List Char32 :=
  match it.snd with
  | none => [it.fst]
  | some d => [it.fst, 45#32, d]

/-- The smallest character of an item. -/
def Item.lo (it : Item) : Nat := match it.snd with
  | none => it.fst.toNat
  | some d => min it.fst.toNat d.toNat

/-- The greatest character of an item. -/
def Item.hi (it : Item) : Nat := match it.snd with
  | none => it.fst.toNat
  | some d => max it.fst.toNat d.toNat

/-- An item of ASCII characters that does not start with `]`, `-` or `^`. -/
def Item.ok (it : Item) : Prop :=
  it.hi < 0x80 ∧ it.fst.toNat ∉ [93, 45, 94]

/-- Neither range lies strictly inside the other one, and equal starts have equal ends. -/
def Item.apart (a b : Item) : Prop := (a.lo ≤ b.lo → a.hi ≤ b.hi) ∧ (b.lo ≤ a.lo → b.hi ≤ a.hi)

/-- `c` is in one of the ranges. -/
def Mem (rl : List Rng) (c : Nat) : Prop := ∃ r ∈ rl, r.1.toNat ≤ c ∧ c ≤ r.2.toNat

/-- Levels of the grammar. -/
inductive Lvl where
  /-- one character, class or group -/
  | base
  /-- with a repetition -/
  | rep
  /-- a sequence -/
  | cat
  /-- alternatives -/
  | alt

/-- `Gr l cs t n n'`: the characters `cs` are an expression of level `l` standing for the tree `t`; groups
are numbered from `n` on, and `n'` is the next number. -/
inductive Gr : Lvl → List Char32 → Ast → Nat → Nat → Prop where
  /-- a plain character -/
  | chr {c n} : plain c → Gr .base [c] (.chr c) n n
  /-- an escape -/
  | esc {c t n} : (c.toNat, t) ∈ escapes → Gr .base [92#32, c] t n n
  /-- `^` -/
  | bol {n} : Gr .base [94#32] .bol n n
  /-- `$` -/
  | eol {n} : Gr .base [36#32] .eol n n
  /-- `.` -/
  | any {n} : Gr .base [46#32] (.ranges [(0, 0x10ffff)]) n n
  /-- a group that captures -/
  | cap {cs t n n'} : Gr .alt cs t (n + 1) n' → Gr .base (40#32 :: (cs ++ [41#32])) (.cap n t) n n'
  /-- a group that does not -/
  | grp {cs t n n'} : Gr .alt cs t n n' → Gr .base (40#32 :: 63#32 :: 58#32 :: (cs ++ [41#32])) t n n'
  /-- a bracket expression -/
  | cls {items rl n} : items ≠ [] → (∀ it ∈ items, it.ok) → items.Pairwise Item.apart →
      (∀ c, Mem rl c ↔ ∃ it ∈ items, it.lo ≤ c ∧ c ≤ it.hi) →
      Gr .base (91#32 :: (items.flatMap Item.chars ++ [93#32])) (.ranges rl) n n
  /-- a negated bracket expression; without NUL and DEL -/
  | neg {items rl n} : items ≠ [] → (∀ it ∈ items, it.ok ∧ 0 < it.lo ∧ it.hi < 0x7f) → items.Pairwise Item.apart →
      (∀ c, Mem rl c ↔ c < 0x110000 ∧ ¬ ∃ it ∈ items, it.lo ≤ c ∧ c ≤ it.hi) →
      Gr .base (91#32 :: 94#32 :: (items.flatMap Item.chars ++ [93#32])) (.ranges rl) n n
  /-- once -/
  | one {cs t n n'} : Gr .base cs t n n' → Gr .rep cs t n n'
  /-- `*` -/
  | star {cs t n n'} : Gr .base cs t n n' → Gr .rep (cs ++ [42#32]) (.star t false) n n'
  /-- `*?` -/
  | starr {cs t n n'} : Gr .base cs t n n' → Gr .rep (cs ++ [42#32, 63#32]) (.star t true) n n'
  /-- `+` -/
  | plus {cs t n n'} : Gr .base cs t n n' → Gr .rep (cs ++ [43#32]) (.plus t false) n n'
  /-- `+?` -/
  | plusr {cs t n n'} : Gr .base cs t n n' → Gr .rep (cs ++ [43#32, 63#32]) (.plus t true) n n'
  /-- `?` -/
  | quest {cs t n n'} : Gr .base cs t n n' → Gr .rep (cs ++ [63#32]) (.quest t) n n'
  /-- the last one of a sequence -/
  | last {cs t n n'} : Gr .rep cs t n n' → Gr .cat cs t n n'
  /-- one and more -/
  | cat {cs t n n1 cs' t' n'} : Gr .rep cs t n n1 → Gr .cat cs' t' n1 n' → Gr .cat (cs ++ cs') (.cat t t') n n'
  /-- no alternative -/
  | only {cs t n n'} : Gr .cat cs t n n' → Gr .alt cs t n n'
  /-- one or the others -/
  | alt {cs t n n1 cs' t' n'} : Gr .cat cs t n n1 → Gr .alt cs' t' n1 n' → Gr .alt (cs ++ 124#32 :: cs') (.alt t t') n n'

end Verif.Regex
