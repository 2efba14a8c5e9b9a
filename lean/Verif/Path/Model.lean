import Verif.Str.Model

/-!
# Model of /repo/lib/std/pathjoin.myr

`junk n` is the content of the fresh buffer `strjoin` gets.
-/

namespace Verif.Path

/-- The loop at pathjoin.myr:51-55: "." components become empty (`n` rounds to go). -/
def dotLoop : Nat → List (List Byte) → Res (List (List Byte))
  | 0, comps => .ok comps
  | n + 1, comps => do
    let i := comps.length - (n + 1)
    let c ← rdChk comps i
    if c = [46#8] then do
      let comps ← wrChk comps i []
      dotLoop n comps
    else dotLoop n comps

/-- The inner loop at pathjoin.myr:69-75 searching backwards; the argument is `i - del + 1`. -/
def scan (comps : List (List Byte)) : Nat → Res (Option Nat)
  | 0 => .ok none
  | j + 1 => do
    let c ← rdChk comps j
    if c.length > 0 ∧ c ≠ [46#8, 46#8] then pure (some j) else scan comps j

/-- The loop at pathjoin.myr:65-76 (`n` rounds to go). -/
def resolveLoop : Nat → List (List Byte) → Res (List (List Byte))
  | 0, comps => .ok comps
  | n + 1, comps => do
    let i := comps.length - (n + 1)
    let c ← rdChk comps i
    if c ≠ [46#8, 46#8] then resolveLoop n comps
    else do
      match ← scan comps i with
      | some j => do
        let comps ← wrChk comps j []
        let comps ← wrChk comps i []
        resolveLoop n comps
      | none => resolveLoop n comps

/-- The loop at pathjoin.myr:79-84 (`n` rounds to go), moving kept components down. -/
def compactLoop : Nat → Nat → List (List Byte) → Res (List (List Byte) × Nat)
  | 0, dst, comps => .ok (comps, dst)
  | n + 1, dst, comps => do
    let i := comps.length - (n + 1)
    let c ← rdChk comps i
    if c.length > 0 then do
      let comps ← wrChk comps dst c
      compactLoop n (dst + 1) comps
    else compactLoop n dst comps

/-- The loop at pathjoin.myr:93-97: index of the first component other than "..". -/
def skipUps (comps : List (List Byte)) (i : Nat) : Res Nat :=
  if h : i < comps.length then do
    let c ← rdChk comps i
    if c ≠ [46#8, 46#8] then pure i else skipUps comps (i + 1)
  else .ok i
termination_by comps.length - i
decreasing_by omega

/-- `pathnorm`, pathjoin.myr:40-108; `fmt("/{}", s)` puts a slash before `s`. -/
def pathnorm (junk : Nat → List Byte) (p : List Byte) : Res (List Byte) := do
  let comps ← Str.strsplit (p.length + 1) p [47#8]
  let comps ← dotLoop comps.length comps
  let comps ← resolveLoop comps.length comps
  let (comps, dst) ← compactLoop comps.length 0 comps
  let comps ← slice comps 0 dst
  if p.length > 0 ∧ p.take 1 = [47#8] then do
    let i ← skipUps comps 0
    let rest ← slice comps i comps.length
    let s ← Str.strjoin junk rest [47#8]
    pure (47#8 :: s)
  else if comps.length = 0 then pure [46#8]
  else Str.strjoin junk comps [47#8]

/-- The loop of `pathjoin`, pathjoin.myr:29-33. -/
def skipEmpty (l : List (List Byte)) (i : Nat) : Res Nat :=
  if h : i < l.length then do
    let c ← rdChk l i
    if c.length ≠ 0 then pure i else skipEmpty l (i + 1)
  else .ok i
termination_by l.length - i
decreasing_by omega

/-- `pathjoin`, pathjoin.myr:26-38. -/
def pathjoin (junk : Nat → List Byte) (l : List (List Byte)) : Res (List Byte) := do
  let i ← skipEmpty l 0
  let rest ← slice l i l.length
  let p ← Str.strjoin junk rest [47#8]
  pathnorm junk p

/-- `pathabs`, pathjoin.myr:110-116; `hasprefix(p, "/")` as a comparison of the first byte
(see `IntFmt.hasprefix_iff`), `cwd` is what `getcwd` returns. -/
def pathabs (junk : Nat → List Byte) (cwd p : List Byte) : Res (List Byte) :=
  if p.take 1 = [47#8] then pathnorm junk p
  else do
    let q ← pathjoin junk [cwd, p]
    pathnorm junk q

end Verif.Path
