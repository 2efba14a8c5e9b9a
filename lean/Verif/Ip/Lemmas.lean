import Verif.Ip.Model
import Verif.IntFmt.Props
import Verif.Str.Props
import Verif.Slice.Props

/-!
# Texts of numbers; lemmas on `num`
-/

namespace Verif.Ip
open Verif.IntFmt (ofDigits readNum digitOf)

/-- The value of a hexadecimal digit (specification). -/
def dig (b : Byte) : Option Nat :=
  if 48 ≤ b.toNat ∧ b.toNat ≤ 57 then some (b.toNat - 48)
  else if 97 ≤ b.toNat ∧ b.toNat ≤ 102 then some (b.toNat - 87)
  else if 65 ≤ b.toNat ∧ b.toNat ≤ 70 then some (b.toNat - 55)
  else none

/-- `p` is a non-empty text of base-`base` digits with value `n` (specification). -/
def Num (base : Nat) (p : List Byte) (n : Nat) : Prop :=
  p ≠ [] ∧ ∃ ds : List Nat, p.map dig = ds.map some ∧ (∀ d ∈ ds, d < base) ∧ ofDigits base ds = n

theorem dig_ascii {b : Byte} {d : Nat} (h : dig b = some d) : b.toNat ≤ 0x7f ∧ b ≠ 45#8 ∧ b ≠ 95#8 ∧ b ≠ 46#8 ∧ b ≠ 58#8 := by
  have key : ∀ x : Fin (2 ^ 8), dig (BitVec.ofFin x) ≠ none → (BitVec.ofFin x).toNat ≤ 0x7f ∧
      BitVec.ofFin x ≠ 45#8 ∧ BitVec.ofFin x ≠ 95#8 ∧ BitVec.ofFin x ≠ 46#8 ∧ BitVec.ofFin x ≠ 58#8 := by decide +kernel
  exact key b.toFin (by rw [show BitVec.ofFin b.toFin = b from rfl, h]; simp)

theorem enc_ascii (p : List Byte) (h : ∀ b ∈ p, b.toNat ≤ 0x7f) : Utf.enc (p.map (BitVec.setWidth 32)) = p := by
  induction p with
  | nil => rfl
  | cons b p ih =>
    have hb := h b (by simp)
    have e := ih (fun x hx => h x (by simp [hx]))
    unfold Utf.enc at e ⊢
    rw [List.map_cons, List.flatMap_cons, e]
    have : (b.setWidth 32).toNat = b.toNat := by
      rw [BitVec.toNat_setWidth]; apply Nat.mod_eq_of_lt; omega
    rw [this, Utf.utf8, if_pos hb]
    simp

theorem map_dig {p : List Byte} {ds : List Nat} (h : p.map dig = ds.map some) : ∀ b ∈ p, ∃ d ∈ ds, dig b = some d := by
  intro b hb
  have : dig b ∈ ds.map some := by rw [← h]; exact List.mem_map_of_mem hb
  obtain ⟨d, hd, e⟩ := List.mem_map.mp this
  exact ⟨d, hd, e.symm⟩

theorem digitOf_dig (b : Byte) (d : Nat) (h : dig b = some d) : digitOf (b.setWidth 32) = some d := by
  have key : ∀ x : Fin (2 ^ 8), dig (BitVec.ofFin x) ≠ none → digitOf ((BitVec.ofFin x).setWidth 32) = dig (BitVec.ofFin x) := by
    decide +kernel
  have := key b.toFin (by rw [show BitVec.ofFin b.toFin = b from rfl, h]; simp)
  rw [show BitVec.ofFin b.toFin = b from rfl, h] at this
  exact this

theorem mapM_digits (base : Nat) (p : List Byte) : ∀ (ds : List Nat), p.map dig = ds.map some → (∀ d ∈ ds, d < base) →
    (p.map (BitVec.setWidth 32)).mapM (fun c => (digitOf c).bind fun d => if d < base then some d else none) = some ds := by
  induction p with
  | nil => intro ds h _; cases ds with
    | nil => rfl
    | cons => simp at h
  | cons b p ih =>
    intro ds h hd
    cases ds with
    | nil => simp at h
    | cons d ds =>
      simp only [List.map_cons, List.cons.injEq] at h
      rw [List.map_cons, List.mapM_cons, ih ds h.2 (fun x hx => hd x (by simp [hx])), digitOf_dig b d h.1]
      simp [hd d (by simp)]

theorem intparsebase_num {base : Nat} {p : List Byte} {n : Nat} (h : Num base p n) :
    IntFmt.intparsebase 32 p (base : Int) = .ok (some (BitVec.ofNat 32 n)) := by
  obtain ⟨hne, ds, hm, hd, hv⟩ := h
  have ha : ∀ b ∈ p, b.toNat ≤ 0x7f := fun b hb => by
    obtain ⟨d, _, e⟩ := map_dig hm b hb; exact (dig_ascii e).1
  have hc : Utf.CodePoints (p.map (BitVec.setWidth 32)) := by
    intro c hc
    obtain ⟨b, hb, rfl⟩ := List.mem_map.mp hc
    rw [BitVec.toNat_setWidth]
    have := ha b hb
    omega
  have inj : ∀ b : Byte, ∀ k : Byte, b.setWidth 32 = k.setWidth 32 → b = k := by
    intro b k h
    have := congrArg BitVec.toNat h
    rw [BitVec.toNat_setWidth, BitVec.toNat_setWidth, Nat.mod_eq_of_lt (by omega), Nat.mod_eq_of_lt (by omega)] at this
    exact BitVec.eq_of_toNat_eq this
  have := (IntFmt.intparsebase_spec 32 base _ hc).1 ?_
  · rw [enc_ascii p ha] at this
    rw [this]
    unfold readNum
    have hf : (p.map (BitVec.setWidth 32)).filter (· ≠ 95#32) = p.map (BitVec.setWidth 32) := by
      rw [List.filter_eq_self]
      intro c hc
      obtain ⟨b, hb, rfl⟩ := List.mem_map.mp hc
      obtain ⟨d, _, e⟩ := map_dig hm b hb
      simp only [ne_eq, decide_eq_true_eq]
      intro h
      exact (dig_ascii e).2.2.1 (inj b 95#8 h)
    rw [hf, mapM_digits base p ds hm hd, Option.map_some, Option.map_some, hv]
  · cases p with
    | nil => simp
    | cons b p =>
      intro h
      obtain ⟨d, _, e⟩ := map_dig hm b (by simp)
      simp only [List.map_cons, List.head?_cons, Option.some.injEq] at h
      exact (dig_ascii e).2.1 (inj b 45#8 h)

theorem num_nosep {base : Nat} {p : List Byte} {n : Nat} (h : Num base p n) : ∀ b ∈ p, b ≠ 46#8 ∧ b ≠ 58#8 := by
  obtain ⟨_, ds, hm, _, _⟩ := h
  intro b hb
  obtain ⟨d, _, e⟩ := map_dig hm b hb
  exact ⟨(dig_ascii e).2.2.2.1, (dig_ascii e).2.2.2.2⟩

theorem numLen_spec (sep : Byte) (p r : List Byte) (hp : ∀ b ∈ p, b ≠ sep) (hr : r.head? = none ∨ r.head? = some sep) :
    numLen sep (p ++ r) = p.length := by
  induction p with
  | nil =>
    cases r with
    | nil => rfl
    | cons c r => simp at hr; simp [numLen, hr]
  | cons b p ih =>
    rw [List.cons_append, numLen, if_neg (hp b (by simp)), ih (fun x hx => hp x (by simp [hx])), List.length_cons]

/-- `num` on a number followed by the separator or the end. -/
theorem num_spec {base : Nat} {p : List Byte} {n : Nat} (h : Num base p n) (hi : Nat) (hhi : hi < 2 ^ 31)
    (hn : n < 2 ^ 32) (sep : Byte) (hs : sep = 46#8 ∨ sep = 58#8) (r : List Byte)
    (hr : r.head? = none ∨ r.head? = some sep) :
    num (p ++ r) 0 hi base sep true = .ok (if n ≤ hi then (BitVec.ofNat 32 n, r, true) else (0#32, [], false)) := by
  have hp : ∀ b ∈ p, b ≠ sep := by
    intro b hb
    have := num_nosep h b hb
    rcases hs with rfl | rfl
    · exact this.1
    · exact this.2
  unfold num
  simp only [Bool.not_true, Bool.false_eq_true, ↓reduceIte]
  rw [numLen_spec sep p r hp hr, slice_prefix (by simp), Res.bind_ok, List.take_left' rfl, intparsebase_num h,
    Res.bind_ok]
  simp only
  have hti := BitVec.toInt_eq_toNat_cond (BitVec.ofNat 32 n)
  rw [BitVec.toNat_ofNat, Nat.mod_eq_of_lt hn] at hti
  by_cases hle : n ≤ hi
  · rw [if_pos (by omega)] at hti
    rw [if_neg (by omega), slice_suffix (by simp), Res.bind_ok, List.drop_left' rfl, if_pos hle]
    rfl
  · rw [if_pos (by split at hti <;> omega), if_neg hle]

/-- `num` on an empty part is zero. -/
theorem num_empty (hi base : Nat) (sep : Byte) (r : List Byte)
    (hr : r.head? = none ∨ r.head? = some sep) :
    num r 0 hi base sep true = .ok (0#32, r, true) := by
  unfold num
  simp only [Bool.not_true, Bool.false_eq_true, ↓reduceIte]
  have := numLen_spec sep [] r (by simp) hr
  simp only [List.nil_append, List.length_nil] at this
  rw [this, slice_prefix (by simp), Res.bind_ok, List.take_zero]
  have e := (IntFmt.intparsebase_spec 32 base [] (by intro c hc; simp at hc)).1 (by simp)
  rw [show Utf.enc [] = [] from rfl, show readNum base [] = some 0 from rfl] at e
  rw [e, Res.bind_ok]
  simp only [Option.map_some]
  rw [if_neg (by simp), slice_suffix (by simp), Res.bind_ok]
  simp

end Verif.Ip
