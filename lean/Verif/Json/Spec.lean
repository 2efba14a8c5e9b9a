import Verif.Json.Model
import Verif.Utf.Spec

/-!
# Specification: the grammar of JSON (RFC 8259), over code points

Each text is related to the value it denotes.
-/

namespace Verif.Json

open Utf (Char32 utf8 enc CodePoints)

/-- Whitespace (RFC 8259, section 2). -/
def Ws (l : List Char32) : Prop := ∀ c ∈ l, c = 32#32 ∨ c = 9#32 ∨ c = 13#32 ∨ c = 10#32

/-- One digit or more. -/
def Digits (l : List Char32) : Prop := l ≠ [] ∧ ∀ c ∈ l, 48 ≤ c.toNat ∧ c.toNat ≤ 57

/-- Numbers (section 6). -/
def Number (t : List Char32) : Prop :=
  ∃ sign int frac exp, t = sign ++ int ++ frac ++ exp ∧
    (sign = [] ∨ sign = [45#32]) ∧
    (int = [48#32] ∨ Digits int ∧ int.head? ≠ some 48#32) ∧
    (frac = [] ∨ ∃ d, Digits d ∧ frac = 46#32 :: d) ∧
    (exp = [] ∨ ∃ e s d, (e = 101#32 ∨ e = 69#32) ∧ (s = [] ∨ s = [43#32] ∨ s = [45#32]) ∧ Digits d ∧ exp = e :: s ++ d)

/-- The value of a hexadecimal digit. -/
def Hex (c : Char32) (v : Nat) : Prop :=
  (48 ≤ c.toNat ∧ c.toNat ≤ 57 ∧ v = c.toNat - 48) ∨ (65 ≤ c.toNat ∧ c.toNat ≤ 70 ∧ v = c.toNat - 55) ∨ (97 ≤ c.toNat ∧ c.toNat ≤ 102 ∧ v = c.toNat - 87)

/-- The characters which may follow a backslash, with what they stand for (section 7). -/
def escapes : List (Char32 × Nat) := [(34, 34), (92, 92), (47, 47), (98, 8), (102, 12), (110, 10), (114, 13), (116, 9)]

/-- What a string contains (section 7); `u` tells whether escapes `\uXXXX` may be used. Pairs of surrogates are left out. -/
inductive Items (u : Bool) : List Char32 → List Nat → Prop
  | nil : Items u [] []
  | plain {c : Char32} {t : List Char32} {s : List Nat} : (c.toNat = 0x20 ∨ c.toNat = 0x21 ∨ (0x23 ≤ c.toNat ∧ c.toNat ≤ 0x5b) ∨ (0x5d ≤ c.toNat ∧ c.toNat ≤ 0x10ffff)) →
      Items u t s → Items u (c :: t) (c.toNat :: s)
  | esc {e : Char32} {v : Nat} {t : List Char32} {s : List Nat} : (e, v) ∈ escapes → Items u t s → Items u (92#32 :: e :: t) (v :: s)
  | uni {a b c d : Char32} {i j k l : Nat} {t : List Char32} {s : List Nat} : u = true → Hex a i → Hex b j → Hex c k → Hex d l →
      ¬ (0xd800 ≤ ((i * 16 + j) * 16 + k) * 16 + l ∧ ((i * 16 + j) * 16 + k) * 16 + l ≤ 0xdfff) → Items u t s →
      Items u (92#32 :: 117#32 :: a :: b :: c :: d :: t) ((((i * 16 + j) * 16 + k) * 16 + l) :: s)

/-- A string in quotes, and the UTF-8 of what it contains. -/
def Str (u : Bool) (t : List Char32) (s : List Byte) : Prop := ∃ b cs, t = 34#32 :: b ++ [34#32] ∧ Items u b cs ∧ s = cs.flatMap utf8

mutual
/-- Values (section 3). -/
inductive Elt {F : Type} (fp : List Byte → Option F) (u : Bool) : List Char32 → Val F → Prop
  | null : Elt fp u [110#32, 117#32, 108#32, 108#32] .null
  | true_ : Elt fp u [116#32, 114#32, 117#32, 101#32] (.bool true)
  | false_ : Elt fp u [102#32, 97#32, 108#32, 115#32, 101#32] (.bool false)
  | num {t : List Char32} {n : F} : Number t → fp (enc t) = some n → Elt fp u t (.num n)
  | str {t : List Char32} {s : List Byte} : Str u t s → Elt fp u t (.str s)
  | arr0 {w : List Char32} : Ws w → Elt fp u (91#32 :: w ++ [93#32]) (.arr [])
  | arr {t : List Char32} {l : List (Val F)} : Elts fp u t l → Elt fp u (91#32 :: t ++ [93#32]) (.arr l)
  | obj0 {w : List Char32} : Ws w → Elt fp u (123#32 :: w ++ [125#32]) (.obj [])
  | obj {t : List Char32} {l : List (List Byte × Val F)} : Membs fp u t l → Elt fp u (123#32 :: t ++ [125#32]) (.obj l)

/-- Values with commas between them (section 5). -/
inductive Elts {F : Type} (fp : List Byte → Option F) (u : Bool) : List Char32 → List (Val F) → Prop
  | one {w1 t w2 : List Char32} {v : Val F} : Ws w1 → Elt fp u t v → Ws w2 → Elts fp u (w1 ++ t ++ w2) [v]
  | more {w1 t w2 r : List Char32} {v : Val F} {l : List (Val F)} : Ws w1 → Elt fp u t v → Ws w2 → Elts fp u r l → Elts fp u (w1 ++ t ++ w2 ++ [44#32] ++ r) (v :: l)

/-- Members with commas between them (section 4). -/
inductive Membs {F : Type} (fp : List Byte → Option F) (u : Bool) : List Char32 → List (List Byte × Val F) → Prop
  | one {w1 k w2 w3 t w4 : List Char32} {s : List Byte} {v : Val F} : Ws w1 → Str u k s → Ws w2 → Ws w3 → Elt fp u t v → Ws w4 →
      Membs fp u (w1 ++ k ++ w2 ++ [58#32] ++ w3 ++ t ++ w4) [(s, v)]
  | more {w1 k w2 w3 t w4 r : List Char32} {s : List Byte} {v : Val F} {l : List (List Byte × Val F)} : Ws w1 → Str u k s → Ws w2 → Ws w3 → Elt fp u t v → Ws w4 →
      Membs fp u r l → Membs fp u (w1 ++ k ++ w2 ++ [58#32] ++ w3 ++ t ++ w4 ++ [44#32] ++ r) ((s, v) :: l)
end

/-- A JSON text (section 2). -/
def Doc {F : Type} (fp : List Byte → Option F) (u : Bool) (cs : List Char32) (v : Val F) : Prop :=
  ∃ w1 t w2, cs = w1 ++ t ++ w2 ∧ Ws w1 ∧ Elt fp u t v ∧ Ws w2

mutual
/-- How deep arrays and objects are nested. -/
def depthOf {F : Type} : Val F → Nat
  | .arr l => depthsOf l + 1
  | .obj l => depthmOf l + 1
  | _ => 0
/-- The deepest of some values. -/
def depthsOf {F : Type} : List (Val F) → Nat
  | [] => 0
  | v :: l => max (depthOf v) (depthsOf l)
/-- The deepest of some members. -/
def depthmOf {F : Type} : List (List Byte × Val F) → Nat
  | [] => 0
  | m :: l => max (depthOf m.2) (depthmOf l)
end

mutual
/-- How many empty arrays and objects there are. -/
def empties {F : Type} : Val F → Nat
  | .arr l => if l.isEmpty then 1 else emptiess l
  | .obj l => if l.isEmpty then 1 else emptiesm l
  | _ => 0
/-- Of some values. -/
def emptiess {F : Type} : List (Val F) → Nat
  | [] => 0
  | v :: l => empties v + emptiess l
/-- Of some members. -/
def emptiesm {F : Type} : List (List Byte × Val F) → Nat
  | [] => 0
  | m :: l => empties m.2 + emptiesm l
end

/-- The claim that all texts of the grammar are read, as long as nesting is within the limit. -/
def Reads : Prop := ∀ (F : Type) (fp : List Byte → Option F) (cs : List Char32) (v : Val F), CodePoints cs → Doc fp true cs v → depthOf v ≤ 1024 → parse fp (enc cs) = PM.ret v

/-- The same claim for texts without escapes `\uXXXX`. -/
def ReadsPlain : Prop := ∀ (F : Type) (fp : List Byte → Option F) (cs : List Char32) (v : Val F), CodePoints cs → Doc fp false cs v → depthOf v ≤ 1024 → parse fp (enc cs) = PM.ret v

/-- The claim that nothing else is accepted. -/
def Rejects : Prop := ∀ (F : Type) (fp : List Byte → Option F) (cs : List Char32) (v : Val F), CodePoints cs → parse fp (enc cs) = PM.ret v → Doc fp true cs v

mutual
/-- The strings in a value satisfy `S`, the numbers `N`. -/
def All {F : Type} (S : List Byte → Prop) (N : F → Prop) : Val F → Prop
  | .num n => N n
  | .str s => S s
  | .arr l => Alls S N l
  | .obj l => Allm S N l
  | _ => True
/-- All of some values. -/
def Alls {F : Type} (S : List Byte → Prop) (N : F → Prop) : List (Val F) → Prop
  | [] => True
  | v :: l => All S N v ∧ Alls S N l
/-- All of some members. -/
def Allm {F : Type} (S : List Byte → Prop) (N : F → Prop) : List (List Byte × Val F) → Prop
  | [] => True
  | m :: l => S m.1 ∧ All S N m.2 ∧ Allm S N l
end

/-- The number is written as a JSON number, from which it is read back. -/
def NumOk {F : Type} (fp : List Byte → Option F) (ff : F → List Byte) (n : F) : Prop := ∃ t, Number t ∧ ff n = enc t ∧ fp (enc t) = some n

/-- UTF-8. -/
def Utf8 (s : List Byte) : Prop := ∃ cs, CodePoints cs ∧ s = enc cs

/-- UTF-8 without quotes and without control characters other than tab, newline, form feed and carriage return. -/
def Tame (s : List Byte) : Prop := ∃ cs, CodePoints cs ∧ s = enc cs ∧ ∀ c ∈ cs, c.toNat ≠ 34 ∧ (32 ≤ c.toNat ∨ c.toNat = 9 ∨ c.toNat = 10 ∨ c.toNat = 12 ∨ c.toNat = 13)

/-- The claim that a value which is formatted and parsed is the same, for strings which satisfy `S`. -/
def RoundTrip (S : List Byte → Prop) : Prop :=
  ∀ (F : Type) (fp : List Byte → Option F) (ff : F → List Byte) (v : Val F), All S (NumOk fp ff) v → depthOf v + empties v ≤ 1024 → parse fp (format ff v) = PM.ret v

end Verif.Json
