import Verif.Prelude

/-!
# Specification: time zone files and the offsets they give

After RFC 8536: version 1 data block (3.1, 3.2), and the meaning of transitions (3.2: "each transition time … the
local time type … in effect from then on"; times before the first transition have the type with index 0).
-/

namespace Verif.Zone.Spec

/-- A local time type: offset to UTC in seconds, whether it is daylight saving time, where its name is. -/
structure Kind where
  gmtoff : BitVec 32
  isdst : Byte
  abbrind : Byte
deriving DecidableEq, Repr

/-- The contents of a file. -/
structure Data where
  time : List (BitVec 32)
  timetype : List Byte
  kinds : List Kind
  abbrevs : List Byte
  leap : List (BitVec 32 × BitVec 32)
  isstd : List Byte
  isgmt : List Byte
deriving DecidableEq, Repr

/-- A number of four bytes, the highest first. -/
def be32 (v : BitVec 32) : List Byte :=
  [v.extractLsb' 24 8, v.extractLsb' 16 8, v.extractLsb' 8 8, v.extractLsb' 0 8]

/-- A count. -/
def cnt (n : Nat) : List Byte := be32 (BitVec.ofNat 32 n)

/-- A local time type. -/
def kindBytes (k : Kind) : List Byte := be32 k.gmtoff ++ [k.isdst, k.abbrind]

/-- A leap second. -/
def leapBytes (x : BitVec 32 × BitVec 32) : List Byte := be32 x.1 ++ be32 x.2

/-- The file: magic, version and 15 bytes without meaning (`hdr`), counts, data. -/
def encode (hdr : List Byte) (z : Data) : List Byte :=
  [0x54, 0x5a, 0x69, 0x66] ++ hdr ++ cnt z.isgmt.length ++ cnt z.isstd.length ++ cnt z.leap.length ++ cnt z.time.length ++
    cnt z.kinds.length ++ cnt z.abbrevs.length ++ z.time.flatMap be32 ++ z.timetype ++ z.kinds.flatMap kindBytes ++
    z.abbrevs ++ z.leap.flatMap leapBytes ++ z.isstd ++ z.isgmt

/-- Files that can be written: one type for each transition, counts of 31 bits. -/
def Fits (z : Data) : Prop :=
  z.timetype.length = z.time.length ∧ z.time.length < 2 ^ 31 ∧ z.kinds.length < 2 ^ 31 ∧ z.abbrevs.length < 2 ^ 31 ∧
    z.leap.length < 2 ^ 31 ∧ z.isstd.length < 2 ^ 31 ∧ z.isgmt.length < 2 ^ 31

/-- Files that make sense: times in order, at least one type, and all types exist. -/
def Sound (z : Data) : Prop :=
  Fits z ∧ z.time.Pairwise (fun a b => a.toInt < b.toInt) ∧ 0 < z.kinds.length ∧ ∀ t ∈ z.timetype, t.toNat < z.kinds.length

/-- How many transitions have been at `tm` microseconds. -/
def passed (z : Data) (tm : Int) : Nat := (z.time.filter (fun t => t.toInt * 1000000 ≤ tm)).length

/-- The offset in microseconds at `tm`: that of the type of the last transition, before the first one of type 0. -/
def offsetAt (z : Data) (tm : Int) : Option Int :=
  match passed z tm with
  | 0 => z.kinds[0]?.map (fun k => k.gmtoff.toInt * 1000000)
  | k + 1 => (z.timetype[k]?.bind (fun t => z.kinds[t.toNat]?)).map (fun k => k.gmtoff.toInt * 1000000)

end Verif.Zone.Spec
