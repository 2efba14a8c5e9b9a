import Verif.Utf.Model

/-!
# Model of the command line parser, /repo/lib/std/optparse.myr

What `put` and `optusage` print is not modelled; `exit` is an outcome with the exit status.
-/

namespace Verif.Optparse

open Utf (Char32)

/-- `optdesc`, optparse.myr:24-30, without the description; `dest` is the variable the argument is stored in,
by a number. -/
structure Opt where
  opt : Char32
  arg : List Byte
  dest : Option Nat
  optional : Bool
deriving DecidableEq, Repr

/-- `optdef`, optparse.myr:16-22, without the description. -/
structure Def where
  minargs : Int
  maxargs : Int
  noargs : Bool
  opts : List Opt

/-- `optctx`, optparse.myr:42-55, and the stores into the variables of the caller so far. -/
structure Ctx where
  args : List (List Byte)
  optargs : List (List Byte)
  argidx : Nat
  curarg : List Byte
  optdone : Bool
  finished : Bool
  stores : List (Nat × List Byte)
deriving DecidableEq, Repr

/-- What a call of a function that may end the program does. -/
inductive Ends (α : Type) where
  | exit (status : Nat)
  | go (a : α)
deriving DecidableEq, Repr

/-- The loop of `next`, optparse.myr:168-178, with the code after the labels (179-185): `n` rounds from `i` on. -/
def nextFrom (c : Ctx) (i : Nat) : Nat → Res Ctx
  | 0 => .ok { c with finished := true }
  | n + 1 => do
    let w ← rdChk c.optargs i
    let ch ← Utf.decode w
    if c.optdone = false ∧ ch = 0x2d#32 then
      if w = [0x2d#8, 0x2d#8] then nextFrom { c with optdone := true } (i + 1) n
      else do
        let r ← slice w 1 w.length
        .ok { c with argidx := i, curarg := r }
    else nextFrom { c with args := c.args ++ [w] } (i + 1) n

/-- `next`, optparse.myr:165-186. -/
def next (c : Ctx) : Res Ctx := nextFrom c (c.argidx + 1) (c.optargs.length - (c.argidx + 1))

/-- `optinfo`, optparse.myr:156-163. -/
def optinfo (o : Char32) : List Opt → Option (Bool × Bool × Option Nat)
  | [] => none
  | d :: ds => if d.opt = o then some (decide (d.arg.length ≠ 0), !d.optional, d.dest) else optinfo o ds

/-- The stores of `match dest`, optparse.myr:137-140. -/
def storeArg (dest : Option Nat) (arg : List Byte) (c : Ctx) : Ctx :=
  match dest with
  | some d => { c with stores := c.stores ++ [(d, arg)] }
  | none => c

/-- The argument of an option, optparse.myr:122-136; `junk` is what the variable `arg` holds at first. -/
def takeArg (junk : List Byte) (needed : Bool) (c : Ctx) : Res (Ends (List Byte × Ctx)) :=
  if c.curarg.length > 0 then do
    let r ← slice c.curarg c.curarg.length c.curarg.length
    let c' ← next { c with curarg := r }
    .ok (.go (c.curarg, c'))
  else if (c.argidx : Int) < (c.optargs.length : Int) - 1 then do
    let a ← rdChk c.optargs (c.argidx + 1)
    let c' ← next { c with argidx := c.argidx + 1 }
    .ok (.go (a, c'))
  else if needed then .ok (.exit 1)
  else .ok (.go (junk, c))

/-- `optnext`, optparse.myr:105-150. -/
def optnext (opts : List Opt) (junk : List Byte) (c : Ctx) : Res (Ends ((Char32 × List Byte) × Ctx)) := do
  let p ← Utf.charstep c.curarg
  let ch := p.1
  let c := { c with curarg := p.2 }
  match optinfo ch opts with
  | none => .ok (.exit (if ch = 0x68#32 ∨ ch = 0x3f#32 then 0 else 1))
  | some (true, needed, dest) => do
    let r ← takeArg junk needed c
    match r with
    | .exit s => .ok (.exit s)
    | .go (arg, c) => .ok (.go ((ch, arg), storeArg dest arg c))
  | some (false, _, _) =>
    if c.curarg.length = 0 then do
      let c ← next c
      .ok (.go ((ch, []), c))
    else .ok (.go ((ch, []), c))

/-- `optdone`, optparse.myr:152-154. -/
def optdone (c : Ctx) : Bool := c.curarg.length = 0 && c.finished

/-- The loop of `optparse`, optparse.myr:68-70; the first argument bounds the number of rounds. -/
def loop (opts : List Opt) (junk : List Byte) : Nat → Ctx → List (Char32 × List Byte) →
    Res (Ends (List (Char32 × List Byte) × Ctx))
  | 0, _, _ => .spin
  | fuel + 1, c, acc =>
    if optdone c then .ok (.go (acc, c))
    else do
      let r ← optnext opts junk c
      match r with
      | .exit s => .ok (.exit s)
      | .go (o, c) => loop opts junk fuel c (acc ++ [o])

/-- `optparsed`, optparse.myr:32-36, and the stores into the variables of the caller. -/
structure Parsed where
  opts : List (Char32 × List Byte)
  args : List (List Byte)
  prog : List Byte
  stores : List (Nat × List Byte)
deriving DecidableEq, Repr

/-- The checks at the end of `optparse`, optparse.myr:71-87. -/
def finish (d : Def) (prog : List Byte) (opts : List (Char32 × List Byte)) (c : Ctx) : Ends Parsed :=
  if (c.args.length : Int) < d.minargs then .exit 1
  else if d.maxargs > 0 ∧ (c.args.length : Int) > d.maxargs then .exit 1
  else if d.noargs ∧ c.args.length ≠ 0 then .exit 1
  else .go ⟨opts, c.args, prog, c.stores⟩

/-- A bound on the rounds of the loop. -/
def fuelFor (args : List (List Byte)) : Nat := (args.map (fun w => w.length + 1)).sum + 1

/-- `optparse`, optparse.myr:58-88, with `optinit` (90-103). -/
def optparse (junk : List Byte) (args : List (List Byte)) (d : Def) : Res (Ends Parsed) := do
  let prog ← rdChk args 0
  let c ← next ⟨[], args, 0, [], false, false, []⟩
  let r ← loop d.opts junk (fuelFor args) c []
  match r with
  | .exit s => .ok (.exit s)
  | .go (opts, c) => .ok (finish d prog opts c)

end Verif.Optparse
