import Verif.Utf.Spec

/-!
# Specification: the usual syntax of command lines

On words of characters, as in the utility syntax guidelines of POSIX (12.2, guidelines 3 to 10), with options
allowed after operands.
-/

namespace Verif.Optparse.Spec

open Utf (Char32)

/-- An option: its letter, whether it takes an argument, whether that can be left out, and the variable the argument
is stored in, by a number. -/
structure Opt where
  letter : Char32
  takes : Bool
  optional : Bool
  dest : Option Nat

/-- A word of the command line. -/
abbrev Word := List Char32

/-- What a command line means: options with their arguments (the empty one for those that take none; `none` is
one left out) and operands, or a wish for help, or nothing. -/
inductive Out where
  | done (opts : List (Char32 × Option Word)) (args : List Word)
  | help
  | refused
deriving DecidableEq, Repr

/-- An option before the rest. -/
def Out.opt (c : Char32) (v : Option Word) : Out → Out
  | .done o a => .done ((c, v) :: o) a
  | r => r

/-- An operand before the rest. -/
def Out.arg (w : Word) : Out → Out
  | .done o a => .done o (w :: a)
  | r => r

/-- The letters of one word: `k` is what the words that follow mean, `sep` is the next word and what those after it
mean, if there is one. -/
def cluster (opts : List Opt) (k : Out) (sep : Option (Word × Out)) : List Char32 → Out
  | [] => k
  | c :: cs =>
    match opts.find? (fun o => decide (o.letter = c)) with
    | none => if c = 0x68#32 ∨ c = 0x3f#32 then .help else .refused
    | some o =>
      if o.takes then
        if cs ≠ [] then k.opt c (some cs)
        else match sep with
          | some (v, k') => k'.opt c (some v)
          | none => if o.optional then .done [(c, none)] [] else .refused
      else (cluster opts k sep cs).opt c (some [])

/-- One word: `rest` are the words after it. -/
def word (opts : List Opt) (w : Word) (rest : List Word) (k : Out) (sep : Option (Word × Out)) : Out :=
  if w = [0x2d#32, 0x2d#32] then .done [] rest
  else match w with
    | [] => k.arg w
    | c :: cs => if c = 0x2d#32 ∧ cs ≠ [] then cluster opts k sep cs else k.arg w

/-- All words. -/
def parse (opts : List Opt) : List Word → Out
  | [] => .done [] []
  | [w] => word opts w [] (.done [] []) none
  | w :: v :: ws => word opts w (v :: ws) (parse opts (v :: ws)) (some (v, parse opts ws))

/-- What is stored: the argument of every option that takes one and has a variable, in order, unless left out. -/
def stores (opts : List Opt) (os : List (Char32 × Option Word)) : List (Nat × Word) :=
  os.filterMap (fun p => do
    let o ← opts.find? (fun o => decide (o.letter = p.1))
    let d ← o.dest
    let v ← p.2
    if o.takes then some (d, v) else none)

/-- Whether the number of operands is acceptable; a largest number that is not positive is none. -/
def CountOk (minargs maxargs : Int) (noargs : Bool) (n : Nat) : Prop :=
  minargs ≤ n ∧ (0 < maxargs → (n : Int) ≤ maxargs) ∧ (noargs = true → n = 0)

/-- The options returned are those meant, with the arguments as bytes; nothing is said about one left out. -/
def Agree (meant : List (Char32 × Option Word)) (got : List (Char32 × List Byte)) : Prop :=
  got.map Prod.fst = meant.map Prod.fst ∧ ∀ x ∈ meant.zip got, ∀ w, x.1.2 = some w → x.2.2 = Utf.enc w

end Verif.Optparse.Spec
