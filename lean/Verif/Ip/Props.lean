import Verif.Ip.Lemmas

/-!
# C55: parsing IP addresses
-/

namespace Verif.Ip
open Verif.Str (join)

/-- What follows the first part. -/
def more (sep : Byte) : List (List Byte) → List Byte
  | [] => []
  | p :: ps => sep :: join [sep] (p :: ps)

theorem join_more (sep : Byte) (p : List Byte) (ps : List (List Byte)) : join [sep] (p :: ps) = p ++ more sep ps := by
  cases ps <;> simp [join, more]

theorem more_head (sep : Byte) (ps : List (List Byte)) : (more sep ps).head? = none ∨ (more sep ps).head? = some sep := by
  cases ps <;> simp [more]

theorem num_false (ip : List Byte) (lo hi base : Int) (sep : Byte) : num ip lo hi base sep false = .ok (0#32, [], false) := rfl

theorem delim_nil (sep : Byte) (ok : Bool) : delim [] sep ok = ([], false) := rfl

theorem delim_more (sep : Byte) (ps : List (List Byte)) (ok : Bool) :
    delim (more sep ps) sep ok = if ps = [] then ([], false) else (join [sep] ps, ok) := by
  cases ps <;> simp [more, delim]

/-- `s` is the dotted quad of `v` (specification). -/
def Quad (s : List Byte) (v : List Byte) : Prop :=
  ∃ (ps : List (List Byte)) (ns : List Nat), ps.length = 4 ∧ List.Forall₂ (Num 10) ps ns ∧ (∀ n ∈ ns, n ≤ 255) ∧
    s = join [46#8] ps ∧ v = ns.map (BitVec.ofNat 8)

/-- **C55, full claim for `ip4parse`.** -/
def Ip4Claim : Prop := ∀ s v, ip4parse s = .ok (some v) ↔ Quad s v

/-- **C55, `ip4parse`, part.**  On texts of non-empty decimal numbers below 2^32 separated by
dots, exactly the dotted quads are accepted, with their values.  Missing: texts with other
characters or empty parts, see `ip4_violated`. -/
theorem ip4_partial (ps : List (List Byte)) (ns : List Nat) (hne : ps ≠ []) (h : List.Forall₂ (Num 10) ps ns)
    (hn : ∀ n ∈ ns, n < 2 ^ 32) :
    ip4parse (join [46#8] ps) =
      .ok (if ns.length = 4 ∧ ∀ n ∈ ns, n ≤ 255 then some (ns.map (BitVec.ofNat 8)) else none) := by
  have step : ∀ (p : List Byte) (n : Nat) (ps : List (List Byte)), Num 10 p n → n < 2 ^ 32 →
      num (join [46#8] (p :: ps)) 0 255 10 46#8 true =
        .ok (if n ≤ 255 then (BitVec.ofNat 32 n, more 46#8 ps, true) else (0#32, [], false)) := by
    intro p n ps hp hn
    rw [join_more]
    exact num_spec hp 255 (by decide) hn 46#8 (Or.inl rfl) _ (more_head _ _)
  unfold ip4parse
  cases h with
  | nil => exact absurd rfl hne
  | @cons p1 n1 ps ns h1 h =>
  rw [step p1 n1 ps h1 (hn n1 (by simp)), Res.bind_ok]
  by_cases g1 : n1 ≤ 255
  swap
  · simp [g1, delim, num_false]
  cases h with
  | nil => simp [g1, more, delim, num_false]
  | @cons p2 n2 ps ns h2 h =>
  rw [if_pos g1]
  simp only [delim_more, reduceCtorEq, ↓reduceIte]
  rw [step p2 n2 ps h2 (hn n2 (by simp)), Res.bind_ok]
  by_cases g2 : n2 ≤ 255
  swap
  · simp [g2, delim, num_false]
  cases h with
  | nil => simp [g2, more, delim, num_false]
  | @cons p3 n3 ps ns h3 h =>
  rw [if_pos g2]
  simp only [delim_more, reduceCtorEq, ↓reduceIte]
  rw [step p3 n3 ps h3 (hn n3 (by simp)), Res.bind_ok]
  by_cases g3 : n3 ≤ 255
  swap
  · simp [g3, delim, num_false]
  cases h with
  | nil => simp [g3, more, delim, num_false]
  | @cons p4 n4 ps ns h4 h =>
  rw [if_pos g3]
  simp only [delim_more, reduceCtorEq, ↓reduceIte]
  rw [step p4 n4 ps h4 (hn n4 (by simp)), Res.bind_ok]
  by_cases g4 : n4 ≤ 255
  swap
  · simp [g4]
  cases h with
  | nil => simp [g1, g2, g3, g4, more]
  | cons h5 h => simp [g4, more]

theorem forall₂_length {α β : Type} {R : α → β → Prop} {l : List α} {m : List β} (h : List.Forall₂ R l m) :
    l.length = m.length := by
  induction h with
  | nil => rfl
  | cons _ _ ih => rw [List.length_cons, List.length_cons, ih]

/-- Every dotted quad is accepted, whatever the number of leading zeros. -/
theorem ip4_accepts (s v : List Byte) (h : Quad s v) : ip4parse s = .ok (some v) := by
  obtain ⟨ps, ns, h4, hf, hle, rfl, rfl⟩ := h
  rw [ip4_partial ps ns (by rintro rfl; simp at h4) hf (fun n hn => by have := hle n hn; omega)]
  rw [if_pos ⟨by rw [← forall₂_length hf]; exact h4, hle⟩]

/-- "..." is accepted as 0.0.0.0. -/
theorem ip4_violated : ¬ Ip4Claim := by
  intro h
  have := (h [46#8, 46#8, 46#8] [0, 0, 0, 0]).mp (by decide +kernel)
  obtain ⟨ps, ns, h4, hf, _, hs, _⟩ := this
  have hl := congrArg List.length hs
  have hp : ∀ p ∈ ps, 1 ≤ p.length := by
    intro p hp
    have : ∀ (ps : List (List Byte)) (ns : List Nat), List.Forall₂ (Num 10) ps ns → ∀ p ∈ ps, 1 ≤ p.length := by
      intro ps ns hf
      induction hf with
      | nil => simp
      | cons a _ ih =>
        intro p hp
        rcases List.mem_cons.mp hp with rfl | hp
        · exact List.length_pos_iff.mpr a.1
        · exact ih p hp
    exact this ps ns hf p hp
  match ps, h4 with
  | [a, b, c, d], _ =>
    have ha := hp a (by simp)
    simp [join] at hl
    omega

/-- 192.168.0.1; a part above 255; the sign and wraparound accepted by the number parser. -/
example : ip4parse [49, 57, 50, 46, 49, 54, 56, 46, 48, 46, 49] = .ok (some [192, 168, 0, 1]) := by decide +kernel
example : ip4parse [50, 53, 54, 46, 48, 46, 48, 46, 48] = .ok none := by decide +kernel
example : ip4parse [45, 48, 46, 95, 46, 52, 50, 57, 52, 57, 54, 55, 50, 57, 55, 46, 48] = .ok (some [0, 0, 1, 0]) := by
  decide +kernel
example : Quad [49, 46, 50, 46, 51, 46, 48, 52] [1, 2, 3, 4] :=
  ⟨[[49], [50], [51], [48, 52]], [1, 2, 3, 4], rfl,
    .cons ⟨by simp, [1], by decide, by decide, rfl⟩ (.cons ⟨by simp, [2], by decide, by decide, rfl⟩
      (.cons ⟨by simp, [3], by decide, by decide, rfl⟩ (.cons ⟨by simp, [0, 4], by decide, by decide, rfl⟩ .nil))),
    by decide, rfl, rfl⟩

/-! ## IPv6 -/

/-- One to four hexadecimal digits with value `n` (specification). -/
def Group (p : List Byte) (n : Nat) : Prop := Num 16 p n ∧ p.length ≤ 4

theorem group_lt {p : List Byte} {n : Nat} (h : Group p n) : n < 65536 := by
  obtain ⟨⟨_, ds, hm, hd, rfl⟩, hl⟩ := h
  have hlen : ds.length ≤ 4 := by
    have := congrArg List.length hm; simp at this; omega
  have key : ∀ (ds : List Nat) (v k : Nat), (∀ d ∈ ds, d < 16) → v < 16 ^ k →
      ds.foldl (fun v d => 16 * v + d) v < 16 ^ (k + ds.length) := by
    intro ds
    induction ds with
    | nil => intro v k _ h; simpa using h
    | cons d ds ih =>
      intro v k hd hv
      have := ih (16 * v + d) (k + 1) (fun x hx => hd x (by simp [hx])) (by
        have := hd d (by simp)
        rw [Nat.pow_succ 16]; omega)
      rw [List.length_cons, show k + (ds.length + 1) = k + 1 + ds.length by omega]
      exact this
  have := key ds 0 0 hd (by simp)
  rw [Nat.zero_add] at this
  exact Nat.lt_of_lt_of_le this (Nat.pow_le_pow_right (by omega) hlen)

/-- The bytes of the groups in network order (specification). -/
def bytes (ns : List Nat) : List Byte := ns.flatMap fun n => [BitVec.ofNat 8 (n / 256), BitVec.ofNat 8 (n % 256)]

theorem bytes_length (ns : List Nat) : (bytes ns).length = 2 * ns.length := by
  induction ns with
  | nil => rfl
  | cons n ns ih => simp only [bytes, List.flatMap_cons, List.length_append, List.length_cons, List.length_nil] at *; omega

theorem hi_byte (n : Nat) (h : n < 65536) :
    ((BitVec.ofNat 32 n &&& 0xff00#32).sshiftRight 8).setWidth 8 = BitVec.ofNat 8 (n / 256) := by
  have key : ∀ x : BitVec 16, ((x.setWidth 32 &&& 0xff00#32).sshiftRight 8).setWidth 8 = (x >>> 8).setWidth 8 := by
    intro x
    ext i hi
    simp only [BitVec.getElem_setWidth, BitVec.getLsbD_sshiftRight, BitVec.getLsbD_and, BitVec.getLsbD_ushiftRight,
      BitVec.msb_and, BitVec.getLsbD_setWidth]
    have : i < 8 := hi
    rcases i with _ | _ | _ | _ | _ | _ | _ | _ | i <;> first | rfl | (simp; done) | (exfalso; omega)
  have := key (BitVec.ofNat 16 n)
  have e : (BitVec.ofNat 16 n).setWidth 32 = BitVec.ofNat 32 n := by
    apply BitVec.eq_of_toNat_eq
    simp only [BitVec.toNat_setWidth, BitVec.toNat_ofNat]; omega
  rw [e] at this
  rw [this]
  apply BitVec.eq_of_toNat_eq
  simp only [BitVec.toNat_setWidth, BitVec.toNat_ofNat, BitVec.toNat_ushiftRight, Nat.shiftRight_eq_div_pow]
  omega

theorem lo_byte (n : Nat) : (BitVec.ofNat 32 n &&& 0xff#32).setWidth 8 = BitVec.ofNat 8 (n % 256) := by
  apply BitVec.eq_of_toNat_eq
  rw [BitVec.toNat_setWidth, BitVec.toNat_and]
  simp only [BitVec.toNat_ofNat]
  rw [show 255 % 2 ^ 32 = 2 ^ 8 - 1 from rfl, Nat.and_two_pow_sub_one_eq_mod]
  omega

/-- One round of the loop on a group (possibly empty: value zero). -/
theorem loop_step (f : Nat) (pre z p r : List Byte) (n : Nat) (hp : Group p n ∨ (p = [] ∧ n = 0))
    (hpos : p ++ r ≠ [])
    (hr : r.head? = none ∨ r.head? = some 58#8) (e : Bool) (ss k : Nat) (hk : pre.length = 2 * k) (hz : 2 ≤ z.length) :
    ip6Loop (f + 1) ⟨pre ++ z, p ++ r, true, e, ss, k⟩ =
      (let val := pre ++ bytes [n] ++ z.drop 2
       if r = [] ∨ k + 1 = 8 then .ok ⟨val, r, true, e, ss, k + 1⟩
       else if r.tail.head? = some 58#8 ∧ !e then ip6Loop f ⟨val, r.tail.tail, true, true, k + 1, k + 1⟩
       else ip6Loop f ⟨val, r.tail, true, e, ss, k + 1⟩) := by
  have hn : n < 65536 := by
    rcases hp with hp | ⟨_, rfl⟩
    · exact group_lt hp
    · decide
  have hnum : num (p ++ r) 0 65536 16 58#8 true = .ok (BitVec.ofNat 32 n, r, true) := by
    rcases hp with hp | ⟨rfl, rfl⟩
    · have := num_spec hp.1 65536 (by decide) (by omega) 58#8 (Or.inr rfl) r hr
      rw [if_pos (by omega)] at this
      exact this
    · exact num_empty 65536 16 58#8 r hr
  obtain ⟨y1, y2, z, rfl⟩ : ∃ y1 y2 z', z = y1 :: y2 :: z' := by
    match z, hz with
    | y1 :: y2 :: z, _ => exact ⟨y1, y2, z, rfl⟩
  rw [ip6Loop, if_pos ⟨List.length_pos_iff.mpr hpos, rfl⟩]
  simp only
  rw [hnum, Res.bind_ok]
  simp only
  rw [wrChk_ok _ (by simp; omega), Res.bind_ok, wrChk_ok _ (by simp; omega), Res.bind_ok, hi_byte n hn, lo_byte,
    List.set_append_right (h := by omega), List.set_append_right (h := by omega),
    show k * 2 - pre.length = 0 by omega, show k * 2 + 1 - pre.length = 1 by omega]
  simp only [List.set_cons_zero, List.set_cons_succ, bytes, List.flatMap_cons, List.flatMap_nil, List.append_nil,
    List.drop_succ_cons, List.drop_zero, List.append_assoc, List.cons_append, List.nil_append]
  cases r with
  | nil => simp
  | cons c r =>
    simp at hr
    subst hr
    simp only [List.length_cons, Nat.add_eq_zero_iff, Nat.one_ne_zero, and_false, false_or, reduceCtorEq, delim,
      ↓reduceIte, List.tail_cons]
    split
    · rfl
    · cases r with
      | nil => simp
      | cons d r =>
        simp only [List.head?_cons, Option.some.injEq, List.tail_cons]
        by_cases hd : d = 58#8 <;> simp [hd]

theorem loop_step_next (f : Nat) (pre z p t : List Byte) (n : Nat) (hp : Group p n) (ht : t.head? ≠ some 58#8)
    (e : Bool) (ss k : Nat) (hk : pre.length = 2 * k) (hz : 2 ≤ z.length) (h8 : k + 1 ≠ 8) :
    ip6Loop (f + 1) ⟨pre ++ z, p ++ 58#8 :: t, true, e, ss, k⟩ =
      ip6Loop f ⟨pre ++ bytes [n] ++ z.drop 2, t, true, e, ss, k + 1⟩ := by
  rw [loop_step f pre z p (58#8 :: t) n (Or.inl hp) (by simp) (Or.inr rfl) e ss k hk hz]
  simp only
  rw [if_neg (by rintro (h | h); · simp at h
                 · exact h8 h), if_neg (fun hc => ht hc.1)]
  rfl

/-- The loop over the last run of groups. -/
theorem loop_last (ps : List (List Byte)) (ns : List Nat) (h : List.Forall₂ Group ps ns) : ∀ (f : Nat) (pre z : List Byte)
    (e : Bool) (ss k : Nat), pre.length = 2 * k → pre.length + z.length = 16 → ns.length < f → k ≤ 8 → ps ≠ [] → k < 8 →
    ∃ s, ip6Loop f ⟨pre ++ z, join [58#8] ps, true, e, ss, k⟩ = .ok s ∧ s.ok = true ∧ s.expand = e ∧ s.segsplit = ss ∧
      (k + ns.length ≤ 8 → s.ip = [] ∧ s.nseg = k + ns.length ∧ s.val = pre ++ bytes ns ++ z.drop (2 * ns.length)) ∧
      (8 < k + ns.length → s.ip ≠ []) := by
  induction h with
  | nil => intro f pre z e ss k _ _ _ _ h; exact absurd rfl h
  | @cons p n ps ns hp h ih =>
    intro f pre z e ss k hk hz hf hk8 _ hlt
    obtain ⟨f, rfl⟩ : ∃ g, f = g + 1 := ⟨f - 1, by omega⟩
    have hpne : p ≠ [] := hp.1.1
    rw [join_more]
    have hs := loop_step f pre z p (more 58#8 ps) n (Or.inl hp) (by simp [hpne]) (more_head _ _) e ss k hk (by omega)
    simp only at hs
    cases h with
    | nil =>
      rw [hs]
      refine ⟨_, by simp only [more, true_or, ↓reduceIte]; rfl, rfl, rfl, rfl, ?_, ?_⟩
      · intro _; exact ⟨rfl, rfl, rfl⟩
      · intro h; simp at h; omega
    | @cons q m ps ns hq h =>
      by_cases h8 : k + 1 = 8
      · refine ⟨_, by rw [hs, if_pos (Or.inr h8)], rfl, rfl, rfl, ?_, ?_⟩
        · intro h; simp at h; omega
        · intro _; simp [more]
      · have hh : ¬ (join [58#8] (q :: ps)).head? = some 58#8 := by
          rw [join_more]
          obtain ⟨c, q', rfl⟩ := List.exists_cons_of_ne_nil hq.1.1
          simp only [List.cons_append, List.head?_cons, Option.some.injEq]
          exact (num_nosep hq.1 c (by simp)).2
        rw [show more 58#8 (q :: ps) = 58#8 :: join [58#8] (q :: ps) from rfl,
          loop_step_next f pre z p _ n hp hh e ss k hk (by omega) h8]
        have hb : (bytes [n]).length = 2 := by rw [bytes_length]; rfl
        obtain ⟨s, g1, g2, g3, g4, g5, g6⟩ := ih f (pre ++ bytes [n]) (z.drop 2) e ss (k + 1)
          (by simp only [List.length_append, hb]; omega) (by simp only [List.length_append, List.length_drop, hb]; omega)
          (by simp only [List.length_cons] at *; omega) (by omega) (by simp) (by omega)
        refine ⟨s, g1, g2, g3, g4, ?_, ?_⟩
        · intro hle
          obtain ⟨a, b, c⟩ := g5 (by simp only [List.length_cons] at *; omega)
          refine ⟨a, by rw [b]; simp only [List.length_cons]; omega, ?_⟩
          rw [c, List.drop_drop]
          have : bytes (n :: m :: ns) = bytes [n] ++ bytes (m :: ns) := by simp [bytes]
          rw [this, ← List.append_assoc]
          simp only [List.length_cons]
          congr 2
          omega
        · intro hgt; exact g6 (by simp only [List.length_cons] at *; omega)

/-- The loop over groups followed by "::". -/
theorem loop_first (ps : List (List Byte)) (ns : List Nat) (h : List.Forall₂ Group ps ns) : ∀ (f : Nat) (pre z r : List Byte)
    (ss k : Nat), pre.length = 2 * k → pre.length + z.length = 16 → k + ns.length < 8 → ps ≠ [] →
    ip6Loop (f + ns.length) ⟨pre ++ z, join [58#8] ps ++ 58#8 :: 58#8 :: r, true, false, ss, k⟩ =
      ip6Loop f ⟨pre ++ bytes ns ++ z.drop (2 * ns.length), r, true, true, k + ns.length, k + ns.length⟩ := by
  induction h with
  | nil => intro f pre z r ss k _ _ _ h; exact absurd rfl h
  | @cons p n ps ns hp h ih =>
    intro f pre z r ss k hk hz hlt _
    simp only [List.length_cons] at hlt
    have hpne : p ≠ [] := hp.1.1
    rw [join_more, List.append_assoc, List.length_cons, ← Nat.add_assoc]
    cases h with
    | nil =>
      rw [show more 58#8 [] ++ 58#8 :: 58#8 :: r = 58#8 :: 58#8 :: r from rfl, List.length_nil, Nat.add_zero,
        loop_step f pre z p _ n (Or.inl hp) (by simp) (Or.inr rfl) false ss k hk (by omega)]
      simp only
      rw [if_neg (by rintro (h | h); · simp at h
                     · simp at hlt; omega), if_pos ⟨rfl, rfl⟩]
      rfl
    | @cons q m ps ns hq h =>
      have hh : ¬ (join [58#8] (q :: ps) ++ 58#8 :: 58#8 :: r).head? = some 58#8 := by
        rw [join_more]
        obtain ⟨c, q', rfl⟩ := List.exists_cons_of_ne_nil hq.1.1
        simp only [List.cons_append, List.head?_cons, Option.some.injEq]
        exact (num_nosep hq.1 c (by simp)).2
      rw [show more 58#8 (q :: ps) ++ 58#8 :: 58#8 :: r = 58#8 :: (join [58#8] (q :: ps) ++ 58#8 :: 58#8 :: r) from rfl,
        loop_step_next _ pre z p _ n hp hh false ss k hk (by omega) (by simp at hlt; omega)]
      have hb : (bytes [n]).length = 2 := by rw [bytes_length]; rfl
      rw [ih f (pre ++ bytes [n]) (z.drop 2) r ss (k + 1) (by simp only [List.length_append, hb]; omega)
        (by simp only [List.length_append, List.length_drop, hb]; omega) (by simp only [List.length_cons] at *; omega) (by simp)]
      have : bytes (n :: m :: ns) = bytes [n] ++ bytes (m :: ns) := by simp [bytes]
      rw [this, ← List.append_assoc, List.drop_drop]
      simp only [List.length_cons, show k + 1 + (ns.length + 1) = k + (ns.length + 1 + 1) by omega,
        show 2 + 2 * (ns.length + 1) = 2 * (ns.length + 1 + 1) by omega]

theorem expandsplit_spec (a b z : List Byte) (na nb : Nat) (ha : a.length = 2 * na) (hb : b.length = 2 * nb)
    (hl : a.length + b.length + z.length = 16) :
    expandsplit (a ++ b ++ z) (na + nb) na = .ok (a ++ List.replicate z.length 0#8 ++ b) := by
  unfold expandsplit
  have e1 : (a ++ b ++ z).length - (8 - (na + nb)) * 2 = (a ++ b).length := by simp; omega
  have e2 : na * 2 = a.length := by omega
  simp only [e1, e2]
  rw [slice_prefix (by simp), Res.bind_ok, List.append_assoc, List.take_left' rfl,
    slice_ok (by simp) (by simp), ← List.append_assoc, List.take_left' rfl, List.drop_left' rfl, Res.bind_ok,
    slice_suffix (by simp), Res.bind_ok]
  rw [if_neg (by simp; omega)]
  have e3 : (a ++ b ++ z).length - b.length = a.length + z.length := by simp; omega
  rw [e3]
  have e4 : ∃ w, (a ++ b ++ z).take (a.length + z.length) = a ++ w ∧ w.length = z.length := by
    refine ⟨(b ++ z).take z.length, ?_, by simp⟩
    rw [List.append_assoc, List.take_length_add_append]
  obtain ⟨w, e4, e5⟩ := e4
  rw [e4]
  have e6 : (a ++ w ++ b).length - b.length = (a ++ w).length := by simp; omega
  rw [e6, slice_ok (by simp) (by simp), Res.bind_ok, List.take_left' rfl, List.drop_left' rfl, Slice.slfill_spec,
    Res.bind_ok, List.drop_left' rfl, List.append_assoc a w b, List.take_left' rfl, e5]
  rfl

theorem join_no2 (ps : List (List Byte)) (ns : List Nat) (h : List.Forall₂ Group ps ns) (hne : ps ≠ []) (r : List Byte) :
    (join [58#8] ps ++ r).head? ≠ some 58#8 := by
  cases h with
  | nil => exact absurd rfl hne
  | cons hq h =>
    rw [join_more]
    obtain ⟨c, q', rfl⟩ := List.exists_cons_of_ne_nil hq.1.1
    simp only [List.cons_append, List.head?_cons, ne_eq, Option.some.injEq]
    exact (num_nosep hq.1 c (by simp)).2

theorem not_expand (s : List Byte) (h : s.head? ≠ some 58#8) :
    decide (s.length > 2 ∧ s.take 2 = [58#8, 58#8]) = false := by
  rw [decide_eq_false_iff_not]
  rintro ⟨h1, h2⟩
  match s, h1 with
  | a :: b :: s, _ => simp at h2; simp [h2] at h

/-- `s` writes the address with the groups `ns`: eight groups, or groups with one "::" for at
least one zero group (specification). -/
inductive Addr : List Byte → List Nat → Prop
  | full (ps : List (List Byte)) (ns : List Nat) : List.Forall₂ Group ps ns → ns.length = 8 → Addr (join [58#8] ps) ns
  | short (ps qs : List (List Byte)) (ns ms : List Nat) : List.Forall₂ Group ps ns → List.Forall₂ Group qs ms →
      ns.length + ms.length ≤ 7 →
      Addr (join [58#8] ps ++ 58#8 :: 58#8 :: join [58#8] qs) (ns ++ List.replicate (8 - ns.length - ms.length) 0 ++ ms)

/-- **C55, full claim for `ip6parse`.** -/
def Ip6Claim : Prop := ∀ val0 s v, val0.length = 16 →
  (ip6parse val0 s = .ok (some v) ↔ ∃ ns, Addr s ns ∧ v = bytes ns)

/-- **C55, eight groups.**  Groups without "::" are accepted exactly if there are eight. -/
theorem ip6_full (val0 : List Byte) (hv : val0.length = 16) (ps : List (List Byte)) (ns : List Nat) (hne : ps ≠ [])
    (h : List.Forall₂ Group ps ns) :
    ip6parse val0 (join [58#8] ps) = .ok (if ns.length = 8 then some (bytes ns) else none) := by
  unfold ip6parse
  simp only
  have hh := join_no2 ps ns h hne []
  rw [List.append_nil] at hh
  rw [not_expand _ hh]
  by_cases hlen : ns.length < 9
  · obtain ⟨s, g1, g2, g3, g4, g5, g6⟩ := loop_last ps ns h 9 [] val0 false 0 0 rfl (by simpa using hv) hlen (by omega) hne (by omega)
    obtain ⟨a, b, c⟩ := g5 (by omega)
    simp only [List.nil_append] at g1 c
    rw [g1, Res.bind_ok, a, g2, g3, b, c]
    simp only [List.length_nil, and_self, ↓reduceIte, Bool.false_eq_true, Nat.zero_add]
    by_cases h8 : ns.length = 8
    · simp only [h8, ne_eq, not_true_eq_false, ↓reduceIte]
      rw [List.drop_eq_nil_of_le (by omega), List.append_nil]
      rfl
    · simp [h8]
  · -- more than eight groups: cut the list
    have key : ∀ (f : Nat) (ps : List (List Byte)) (ns : List Nat), List.Forall₂ Group ps ns → ∀ (pre z : List Byte) (k : Nat),
        pre.length = 2 * k → pre.length + z.length = 16 → 8 - k < f → k < 8 → 8 < k + ns.length →
        ∃ s, ip6Loop f ⟨pre ++ z, join [58#8] ps, true, false, 0, k⟩ = .ok s ∧ s.ip ≠ [] := by
      intro f
      induction f with
      | zero => intros; omega
      | succ f ih =>
        intro ps ns h pre z k hk hz hf hk8 hgt
        cases h with
        | nil => simp at hgt; omega
        | @cons p n ps ns hp h =>
          rw [join_more]
          have hs := loop_step f pre z p (more 58#8 ps) n (Or.inl hp) (by simp [hp.1.1]) (more_head _ _) false 0 k hk (by omega)
          simp only at hs
          cases h with
          | nil => simp at hgt; omega
          | @cons q m ps ns hq h =>
            by_cases h8 : k + 1 = 8
            · exact ⟨_, by rw [hs, if_pos (Or.inr h8)], by simp [more]⟩
            · have hh := join_no2 (q :: ps) (m :: ns) (.cons hq h) (by simp) []
              rw [List.append_nil] at hh
              rw [show more 58#8 (q :: ps) = 58#8 :: join [58#8] (q :: ps) from rfl,
                loop_step_next f pre z p _ n hp hh false 0 k hk (by omega) h8]
              have hb : (bytes [n]).length = 2 := by rw [bytes_length]; rfl
              exact ih (q :: ps) (m :: ns) (.cons hq h) (pre ++ bytes [n]) (z.drop 2) (k + 1)
                (by simp only [List.length_append, hb]; omega) (by simp only [List.length_append, List.length_drop, hb]; omega)
                (by omega) (by omega) (by simp only [List.length_cons] at *; omega)
    obtain ⟨s, g1, g2⟩ := key 9 ps ns h [] val0 0 rfl (by simpa using hv) (by omega) (by omega) (by omega)
    simp only [List.nil_append] at g1
    rw [g1, Res.bind_ok, if_neg (by
      rintro ⟨_, h⟩; exact g2 (List.length_eq_zero_iff.mp h)), if_neg (by omega)]
    rfl

theorem zeros_bytes (k : Nat) : bytes (List.replicate k 0) = List.replicate (2 * k) 0#8 := by
  induction k with
  | zero => rfl
  | succ k ih =>
    rw [List.replicate_succ, show 2 * (k + 1) = 2 * k + 1 + 1 by omega, List.replicate_succ, List.replicate_succ, ← ih]
    rfl

theorem bytes_append (a b : List Nat) : bytes (a ++ b) = bytes a ++ bytes b := by simp [bytes]

/-- **C55, `A::B`** with a non-empty `A`. -/
theorem ip6_mid (val0 : List Byte) (hv : val0.length = 16) (ps qs : List (List Byte)) (ns ms : List Nat) (hne : ps ≠ [])
    (h : List.Forall₂ Group ps ns) (hq : List.Forall₂ Group qs ms) (hle : ns.length + ms.length ≤ 7) :
    ip6parse val0 (join [58#8] ps ++ 58#8 :: 58#8 :: join [58#8] qs) =
      .ok (some (bytes (ns ++ List.replicate (8 - ns.length - ms.length) 0 ++ ms))) := by
  unfold ip6parse
  simp only
  rw [not_expand _ (join_no2 ps ns h hne _)]
  have h1 := loop_first ps ns h (9 - ns.length) [] val0 (join [58#8] qs) 0 0 rfl (by simpa using hv) (by omega) hne
  rw [Nat.sub_add_cancel (by omega), List.nil_append, List.nil_append, Nat.zero_add] at h1
  rw [h1]
  have hb := bytes_length ns
  have hb2 := bytes_length ms
  have hfin : ∀ z : List Byte, z.length = 16 - 2 * ns.length - 2 * ms.length →
      expandsplit (bytes ns ++ bytes ms ++ z) (ns.length + ms.length) ns.length =
        .ok (bytes (ns ++ List.replicate (8 - ns.length - ms.length) 0 ++ ms)) := by
    intro z hz
    rw [expandsplit_spec _ _ _ _ _ hb hb2 (by omega), bytes_append, bytes_append, zeros_bytes, hz]
    congr 4
    omega
  by_cases hqs : qs = []
  · subst hqs
    cases hq
    obtain ⟨f, hf⟩ : ∃ f, 9 - ns.length = f + 1 := ⟨8 - ns.length, by simp at hle; omega⟩
    have := hfin (val0.drop (2 * ns.length)) (by simp; omega)
    simp only [bytes, List.flatMap_nil, List.append_nil, List.length_nil, Nat.add_zero] at this
    simp only [hf, ip6Loop, join, List.length_nil, gt_iff_lt, Nat.lt_irrefl, false_and, ↓reduceIte, Res.bind_ok, and_self,
      bytes, this, List.append_nil]
    rfl
  · obtain ⟨s, g1, g2, g3, g4, g5, _⟩ := loop_last qs ms hq (9 - ns.length) (bytes ns) (val0.drop (2 * ns.length)) true ns.length
      ns.length hb (by simp; omega) (by omega) (by omega) hqs (by omega)
    obtain ⟨a, b, c⟩ := g5 (by omega)
    rw [g1, Res.bind_ok, a, g2, g3, g4, b, c]
    simp only [List.length_nil, and_self, ↓reduceIte]
    rw [hfin _ (by simp; omega)]
    rfl

/-- **C55, `::B`** for up to six groups. -/
theorem ip6_lead_partial (val0 : List Byte) (hv : val0.length = 16) (qs : List (List Byte)) (ms : List Nat)
    (hq : List.Forall₂ Group qs ms) (hle : ms.length ≤ 6) :
    ip6parse val0 (58#8 :: 58#8 :: join [58#8] qs) = .ok (some (bytes (List.replicate (8 - ms.length) 0 ++ ms))) := by
  have hb0 : bytes [0] = [0#8, 0#8] := rfl
  unfold ip6parse
  by_cases hqs : qs = []
  · subst hqs
    cases hq
    simp only [join, List.length_cons, List.length_nil, gt_iff_lt]
    rw [show decide (0 + 1 + 1 > 2 ∧ List.take 2 [58#8, 58#8] = [58#8, 58#8]) = false from rfl]
    have := loop_step 8 [] val0 [] [58#8, 58#8] 0 (Or.inr ⟨rfl, rfl⟩) (by simp) (Or.inr rfl) false 0 0 rfl (by omega)
    simp only [List.nil_append] at this
    rw [this]
    simp only [List.tail_cons, List.head?_cons, reduceCtorEq, Nat.zero_add, false_or, ↓reduceIte, Nat.reduceEqDiff, Bool.not_false,
      and_self]
    rw [ip6Loop, if_neg (by simp), Res.bind_ok]
    simp only [List.length_nil, and_self, ↓reduceIte]
    have h := expandsplit_spec (bytes [0]) [] (val0.drop 2) 1 0 rfl rfl (by simp [hb0]; omega)
    rw [List.append_nil, List.append_nil] at h
    rw [h, Res.bind_ok, hb0, List.length_drop, hv]
    rfl
  · obtain ⟨q, qs, rfl⟩ := List.exists_cons_of_ne_nil hqs
    cases hq with
    | @cons _ m _ ms hq1 hq =>
    have hlen : (58#8 :: 58#8 :: join [58#8] (q :: qs)).length > 2 := by
      rw [join_more]
      have := List.length_pos_iff.mpr hq1.1.1
      simp; omega
    simp only [hlen, List.take_succ_cons, List.take_zero, and_self, decide_true]
    have s1 := loop_step 8 [] val0 [] (58#8 :: 58#8 :: join [58#8] (q :: qs)) 0 (Or.inr ⟨rfl, rfl⟩) (by simp) (Or.inr rfl) true 0 0 rfl (by omega)
    simp only [List.nil_append, List.tail_cons, List.head?_cons, reduceCtorEq, Nat.zero_add, false_or, ↓reduceIte, Nat.reduceEqDiff, Bool.not_true,
      Bool.false_eq_true, and_false] at s1
    rw [s1]
    have s2 := loop_step 7 (bytes [0]) (val0.drop 2) [] (58#8 :: join [58#8] (q :: qs)) 0 (Or.inr ⟨rfl, rfl⟩) (by simp) (Or.inr rfl) true 0 1 rfl (by simp; omega)
    simp only [List.nil_append, List.tail_cons, reduceCtorEq, false_or, ↓reduceIte, Nat.reduceAdd, Nat.reduceEqDiff, Bool.not_true,
      Bool.false_eq_true, and_false] at s2
    rw [s2, List.drop_drop]
    have hf : List.Forall₂ Group (q :: qs) (m :: ms) := .cons hq1 hq
    obtain ⟨s, g1, g2, g3, g4, g5, _⟩ := loop_last (q :: qs) (m :: ms) hf 7 (bytes [0] ++ bytes [0]) (val0.drop (2 + 2)) true 0
      2 rfl (by simp [hb0]; omega) (by omega) (by omega) (by simp) (by omega)
    obtain ⟨a, b, c⟩ := g5 (by omega)
    rw [g1, Res.bind_ok, a, g2, g3, g4, b, c]
    simp only [List.length_nil, and_self, ↓reduceIte]
    have hbm := bytes_length (m :: ms)
    have h := expandsplit_spec [] (bytes [0] ++ bytes [0] ++ bytes (m :: ms)) ((val0.drop (2 + 2)).drop (2 * (m :: ms).length)) 0
      (2 + (m :: ms).length) rfl (by simp only [List.length_append, hbm, hb0, List.length_cons, List.length_nil]; omega)
      (by simp only [List.length_append, hbm, hb0, List.length_cons, List.length_nil, List.length_drop, hv] at *; omega)
    rw [Nat.zero_add, List.nil_append, List.nil_append] at h
    rw [h, Res.bind_ok, bytes_append, zeros_bytes]
    have e : 2 * (8 - (m :: ms).length) = (((val0.drop (2 + 2)).drop (2 * (m :: ms).length)).length + 4) := by
      simp only [List.length_drop, hv]; omega
    rw [e, ← List.replicate_append_replicate, hb0]
    simp only [List.append_assoc]
    rfl

/-- **C55, `ip6parse`, part.**  Every well-formed address is accepted with its value, except
those starting with "::" followed by seven groups.  Missing: that nothing else is accepted;
see `ip6_violated`. -/
theorem ip6_accepts_partial (val0 : List Byte) (hv : val0.length = 16) (s : List Byte) (ns : List Nat) (h : Addr s ns)
    (hx : ¬ ∃ qs ms, List.Forall₂ Group qs ms ∧ ms.length = 7 ∧ s = 58#8 :: 58#8 :: join [58#8] qs) :
    ip6parse val0 s = .ok (some (bytes ns)) := by
  cases h with
  | full ps ns hf h8 =>
    rw [ip6_full val0 hv ps ns (by rintro rfl; cases hf; simp at h8) hf, if_pos h8]
  | short ps qs ns ms hf hq hle =>
    by_cases hp : ps = []
    · subst hp
      cases hf
      simp only [join, List.nil_append, List.length_nil, Nat.sub_zero]
      apply ip6_lead_partial val0 hv qs ms hq
      by_contra hc
      simp at hle
      exact hx ⟨qs, ms, hq, by omega, rfl⟩
    · exact ip6_mid val0 hv ps qs ns ms hp hf hq hle

/-- The claim fails both ways: "::1:2:3:4:5:6:7" is rejected … -/
theorem ip6_violated : ¬ Ip6Claim := by
  intro h
  have := (h (List.replicate 16 0) _ (bytes [0, 1, 2, 3, 4, 5, 6, 7]) rfl).mpr
    ⟨_, Addr.short [] [[49], [50], [51], [52], [53], [54], [55]] [] [1, 2, 3, 4, 5, 6, 7] .nil
      (.cons ⟨⟨by simp, [1], by decide, by decide, rfl⟩, by decide⟩ (.cons ⟨⟨by simp, [2], by decide, by decide, rfl⟩, by decide⟩
        (.cons ⟨⟨by simp, [3], by decide, by decide, rfl⟩, by decide⟩ (.cons ⟨⟨by simp, [4], by decide, by decide, rfl⟩, by decide⟩
        (.cons ⟨⟨by simp, [5], by decide, by decide, rfl⟩, by decide⟩ (.cons ⟨⟨by simp, [6], by decide, by decide, rfl⟩, by decide⟩
        (.cons ⟨⟨by simp, [7], by decide, by decide, rfl⟩, by decide⟩ .nil)))))))
      (by decide), rfl⟩
  revert this
  decide +kernel

/-- … and "1::10000" (a group of five digits), "1::2:" and ":::" are accepted. -/
theorem ip6_accepts_too_much :
    ip6parse (List.replicate 16 0) [49, 58, 58, 49, 48, 48, 48, 48] = .ok (some [0, 1, 0, 0, 0, 0, 0, 0, 0, 0, 0, 0, 0, 0, 0, 0]) ∧
    ip6parse (List.replicate 16 0) [49, 58, 58, 50, 58] = .ok (some [0, 1, 0, 0, 0, 0, 0, 0, 0, 0, 0, 0, 0, 0, 0, 2]) ∧
    ip6parse (List.replicate 16 0) [58, 58, 58] = .ok (some [0, 0, 0, 0, 0, 0, 0, 0, 0, 0, 0, 0, 0, 0, 0, 0]) := by
  decide +kernel

/-- fe80::1 -/
example (val0 : List Byte) (hv : val0.length = 16) : ip6parse val0 [102, 101, 56, 48, 58, 58, 49] =
    .ok (some [0xfe, 0x80, 0, 0, 0, 0, 0, 0, 0, 0, 0, 0, 0, 0, 0, 1]) :=
  ip6_mid val0 hv [[102, 101, 56, 48]] [[49]] [0xfe80] [1] (by simp)
    (.cons ⟨⟨by simp, [15, 14, 8, 0], by decide, by decide, rfl⟩, by decide⟩ .nil)
    (.cons ⟨⟨by simp, [1], by decide, by decide, rfl⟩, by decide⟩ .nil) (by decide)

/-- **C55, `ipparse`** takes texts with a colon to `ip6parse`, others to `ip4parse`. -/
theorem ipparse_spec (val0 s : List Byte) :
    ipparse val0 s = if 58#8 ∈ s then ip6parse val0 s else ip4parse s := by
  obtain ⟨r, h1, _, h3⟩ := Str.strfind_spec s [58#8]
  have hocc : Str.Occurs [58#8] s ↔ 58#8 ∈ s := by
    constructor
    · rintro ⟨i, a, b, rfl, _⟩; simp
    · intro h
      obtain ⟨a, b, rfl⟩ := List.append_of_mem h
      exact ⟨a.length, a, b, by simp, rfl⟩
  unfold ipparse
  rw [h1, Res.bind_ok]
  cases r with
  | none =>
    rw [if_neg (fun h => h3.mp rfl (hocc.mpr h))]
  | some i =>
    rw [if_pos (by
      by_contra hc
      have := h3.mpr (fun h => hc (hocc.mp h))
      simp at this)]

end Verif.Ip
