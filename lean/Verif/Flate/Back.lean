import Verif.Flate.Fwd

/-! # Lemmas: whatever the input, what is decoded was there -/

namespace Verif.Flate

/-- The code comes back; a result satisfies `Q`; it is stopped only if `A` (auxiliary). -/
def Good {α : Type} (A : Prop) (m : FM α) (Q : α → Prop) : Prop :=
  match m with
  | .ok (.ok a) => Q a
  | .ok (.error _) => True
  | .abort => A
  | .ub => False
  | .spin => False

theorem Good.ret {α : Type} {A : Prop} {a : α} {Q : α → Prop} (h : Q a) : Good A (FM.ret a) Q := h
theorem Good.err {α : Type} {A : Prop} {e : Err} {Q : α → Prop} : Good A (FM.err e : FM α) Q := trivial
theorem Good.abort {α : Type} {A : Prop} {Q : α → Prop} (h : A) : Good A (FM.abort : FM α) Q := h

theorem Good.bind {α β : Type} {A : Prop} {m : FM α} {f : α → FM β} {Q : α → Prop} {R : β → Prop} (h : Good A m Q)
    (hf : ∀ a, Q a → Good A (f a) R) : Good A (m >>= f) R := by
  cases m with
  | ok r =>
    cases r with
    | ok a => exact hf a h
    | error e => exact trivial
  | abort => exact h
  | ub => exact h
  | spin => exact h

theorem Good.mono {α : Type} {A B : Prop} {m : FM α} {Q R : α → Prop} (h : Good A m Q) (hab : A → B) (hqr : ∀ a, Q a → R a) :
    Good B m R := by
  cases m with
  | ok r =>
    cases r with
    | ok a => exact hqr a h
    | error e => exact trivial
  | abort => exact hab h
  | ub => exact h
  | spin => exact h

theorem Good.lift {α : Type} {A : Prop} {m : Res α} {a : α} {Q : α → Prop} (h : m = .ok a) (hq : Q a) : Good A (FM.lift m) Q := by
  rw [h]; exact hq

theorem Good.cases {α : Type} {A : Prop} {m : FM α} {Q : α → Prop} (h : Good A m Q) :
    (∃ a, m = FM.ret a ∧ Q a) ∨ (∃ e, m = FM.err e) ∨ (m = FM.abort ∧ A) := by
  cases m with
  | ok r =>
    cases r with
    | ok a => exact .inl ⟨a, rfl, h⟩
    | error e => exact .inr (.inl ⟨e, rfl⟩)
  | abort => exact .inr (.inr ⟨rfl, h⟩)
  | ub => exact h.elim
  | spin => exact h.elim

attribute [irreducible] Good

theorem lsb_num (bs : List Bool) : lsb bs.length (num bs) = bs := by
  induction bs with
  | nil => rfl
  | cons b bs ih =>
    rw [List.length_cons, lsb, num]
    congr 1
    · cases b <;> simp
    · rw [show (b.toNat + 2 * num bs) / 2 = num bs by cases b <;> simp; omega]; exact ih

theorem bits_good {A : Prop} (i : In) (hw : i.WF) (n : Nat) (hn : n ≤ 31) :
    Good A (bits i n) fun p => p.2.WF ∧ p.1 < 2 ^ n ∧ i.pend = lsb n p.1 ++ p.2.pend := by
  by_cases h : n ≤ i.pend.length
  · obtain ⟨i', e1, e2, e3⟩ := bits_ok i hw n hn h
    rw [e1]
    have hl : (i.pend.take n).length = n := by rw [List.length_take]; omega
    refine Good.ret ⟨e2, ?_, ?_⟩
    · have := num_lt (i.pend.take n)
      rwa [hl] at this
    · dsimp only
      have := lsb_num (i.pend.take n)
      rw [hl] at this
      rw [this, e3, List.take_append_drop]
  · rw [bits_short i hw n hn (by omega)]; exact Good.err

theorem readcode_good {A : Prop} (hc : Hufc) (lens : List Nat) (hf : hc.For lens) (i : In) (hw : i.WF) :
    Good A (readcode i hc) fun p => p.2.WF ∧ ∃ b, Code lens p.1 b ∧ i.pend = b ++ p.2.pend := by
  rcases readcode_back hc lens hf i hw with h | h | ⟨s, i', b, h1, h2, h3, h4⟩
  · rw [h]; exact Good.err
  · rw [h]; exact Good.err
  · rw [h1]; exact Good.ret ⟨h2, b, h3, h4⟩

theorem outb_good {A : Prop} (w : Win) (h : w.Inv) (b : Byte) : Good A (outb w b) fun w' => w'.Inv ∧ w'.out = w.out ++ [b] := by
  obtain ⟨w', e1, e2⟩ := outb_ok w h b
  rw [e1]; exact Good.ret e2

theorem copy_good {A : Prop} (w : Win) (h : w.Inv) (n d : Nat) (h1 : 1 ≤ d) (h2 : d ≤ WinSz) :
    Good A (copy w n d) fun w' => w'.Inv ∧ w'.out = copyBack d n w.out ∧ d ≤ w.out.length := by
  by_cases h3 : d ≤ w.out.length
  · obtain ⟨w', e1, e2, e3⟩ := copy_ok w h n d h1 h2 h3
    rw [e1]; exact Good.ret ⟨e2, e3, h3⟩
  · rw [copy_far w h n d (by omega)]; exact Good.err

theorem lenTable_some (s : Nat) (h : s < 29) : ∃ b e, lenTable[s]? = some (b, e) :=
  ⟨(lenTable[s]'h).1, (lenTable[s]'h).2, List.getElem?_eq_getElem (l := lenTable) h⟩

theorem dstTable_some (s : Nat) (h : s < 30) : ∃ b e, dstTable[s]? = some (b, e) :=
  ⟨(dstTable[s]'h).1, (dstTable[s]'h).2, List.getElem?_eq_getElem (l := dstTable) h⟩

theorem rdChk_abort {l : List Nat} {s : Nat} (h : l.length ≤ s) : rdChk l s = .abort := by
  rw [rdChk, List.getElem?_eq_none h]

theorem Code.lt {lens : List Nat} {s : Nat} {b : List Bool} (h : Code lens s b) : s < lens.length := by
  obtain ⟨l, h1, _⟩ := h
  exact (List.getElem?_eq_some_iff.1 h1).1

theorem reference_good {A : Prop} (dl : List Nat) (hd : Hufc) (fd : hd.For dl) (hdl : dl.length ≤ 30 ∨ A) (s : Nat)
    (hs : s < 29 ∨ A) (i : In) (hw : i.WF) (w : Win) (hi : w.Inv) :
    Good A (reference hd i w s) fun r => r.2.1.WF ∧ r.2.2.Inv ∧ r.1 < 30 ∧ ∃ base e x base' e' y d,
      lenTable[s]? = some (base, e) ∧ dstTable[r.1]? = some (base', e') ∧ x < 2 ^ e ∧ y < 2 ^ e' ∧ Code dl r.1 d ∧
      base' + y ≤ w.out.length ∧ r.2.2.out = copyBack (base' + y) (base + x) w.out ∧
      i.pend = lsb e x ++ d ++ lsb e' y ++ r.2.1.pend := by
  rw [reference]
  by_cases hs' : s < 29
  · obtain ⟨base, e, ht⟩ := lenTable_some s hs'
    obtain ⟨a1, a2, a3, _⟩ := lenTable_get _ _ _ ht
    rw [a1, a2, FM.lift_ok, FM.bind_ret]
    refine Good.bind (bits_good i hw e (by omega)) fun x ⟨x1, x2, x3⟩ => ?_
    rw [FM.lift_ok, FM.bind_ret]
    refine Good.bind (readcode_good hd dl fd x.2 x1) fun q ⟨q1, b, q2, q3⟩ => ?_
    have hlt := q2.lt
    by_cases hq : q.1 < 30
    · obtain ⟨base', e', ht'⟩ := dstTable_some q.1 hq
      obtain ⟨b1, b2, b3, _, b5, b6⟩ := dstTable_get _ _ _ ht'
      rw [b1, b2, FM.lift_ok, FM.bind_ret]
      refine Good.bind (bits_good q.2 q1 e' (by omega)) fun y ⟨y1, y2, y3⟩ => ?_
      rw [FM.lift_ok, FM.bind_ret]
      refine Good.bind (copy_good w hi _ _ (by omega) (by omega)) fun w' ⟨w1, w2, w3⟩ => ?_
      refine Good.ret ⟨y1, w1, hq, base, e, x.1, base', e', y.1, b, ht, ht', x2, y2, q2, w3, w2, ?_⟩
      rw [x3, q3, y3]; simp
    · rw [rdChk_abort (by show 30 ≤ q.1; omega)]
      exact Good.abort (hdl.resolve_left (by omega))
  · rw [rdChk_abort (by show 29 ≤ s; omega)]
    exact Good.abort (hs.resolve_left (by omega))

theorem decomp_good {A : Prop} (ll dl : List Nat) (hl hd : Hufc) (fl : hl.For ll) (fd : hd.For dl) (hll : ll.length ≤ 286 ∨ A)
    (hdl : dl.length ≤ 30 ∨ A) (fuel : Nat) (i : In) (hw : i.WF) (w : Win) (hi : w.Inv) (hf : i.pend.length < fuel) :
    Good A (decomp hl hd fuel i w) fun r => r.1.WF ∧ r.2.Inv ∧ ∃ bs, Items ll dl w.out bs r.2.out ∧ i.pend = bs ++ r.1.pend := by
  induction fuel generalizing i w with
  | zero => omega
  | succ fuel ih =>
    rw [decomp]
    refine Good.bind (readcode_good hl ll fl i hw) fun p ⟨p1, b, p2, p3⟩ => ?_
    have hb1 := p2.pos
    have hlt := p2.lt
    have hlen := congrArg List.length p3
    rw [List.length_append] at hlen
    by_cases h1 : p.1 < 256
    · rw [if_pos h1]
      refine Good.bind (outb_good w hi _) fun w' ⟨w1, w2⟩ => ?_
      refine Good.mono (ih p.2 p1 w' w1 (by omega)) id fun r ⟨r1, r2, bs, r3, r4⟩ => ⟨r1, r2, b ++ bs, ?_, ?_⟩
      · rw [w2] at r3
        exact Items.lit (c := BitVec.ofNat 8 p.1) (by rw [BitVec.toNat_ofNat, Nat.mod_eq_of_lt h1]; exact p2) r3
      · rw [p3, r4, List.append_assoc]
    · rw [if_neg h1]
      by_cases h2 : p.1 > 256
      · rw [if_pos h2]
        refine Good.bind (reference_good dl hd fd hdl (p.1 - 257) (hll.imp (fun _ => by omega) id) p.2 p1 w hi) ?_
        rintro q ⟨q1, q2, q3, base, e, x, base', e', y, d, t1, t2, t3, t4, t5, t6, t7, t8⟩
        have hlen2 := congrArg List.length t8
        simp only [List.length_append] at hlen2
        rw [if_pos (by omega)]
        refine Good.mono (ih q.2.1 q1 q.2.2 q2 (by omega)) id
          fun r ⟨r1, r2, bs, r3, r4⟩ => ⟨r1, r2, b ++ lsb e x ++ d ++ lsb e' y ++ bs, ?_, ?_⟩
        · rw [t7] at r3
          exact Items.copy t1 t2 t3 t4 (by rw [show 257 + (p.1 - 257) = p.1 by omega]; exact p2) t5 t6 r3
        · rw [p3, t8, r4]; simp
      · rw [if_neg h2]
        have : p.1 = 256 := by omega
        rw [this] at p2
        exact Good.ret ⟨p1, hi, b, Items.stop p2, p3⟩

theorem pend_lt_fuel (i : In) (hw : i.WF) : i.pend.length < i.fuel := by
  have := hw.lo
  rw [pend_length, In.fuel]; omega

theorem fixed_good {A : Prop} (hA : A) (i : In) (hw : i.WF) (w : Win) (hi : w.Inv) :
    Good A (fixed i w) fun r => r.1.WF ∧ r.2.Inv ∧ ∃ bs, Items fixedLL fixedDL w.out bs r.2.out ∧ i.pend = bs ++ r.1.pend := by
  obtain ⟨hl, e1, f1⟩ := mkhufc_ok fixedLL fixedLL_valid.1 (List.replicate MaxLenSyms 0) (by decide +kernel)
  obtain ⟨hd, e2, f2⟩ := mkhufc_ok fixedDL fixedDL_valid.1 (List.replicate MaxLenSyms 0) (by decide +kernel)
  rw [fixed, fixedlen_eq, fixeddst_eq, e1, e2]
  simp only [FM.lift_ok, FM.bind_ret]
  exact decomp_good fixedLL fixedDL hl hd f1 f2 (.inr hA) (.inr hA) _ i hw w hi (pend_lt_fuel i hw)

/-! ## Stored blocks -/

theorem storedLoop_good {A : Prop} (n : Nat) (i : In) (h8 : i.bpos = 8) (hw : i.WF) (w : Win) (hi : w.Inv) :
    Good A (storedLoop n i w) fun r => r.1.WF ∧ r.2.Inv ∧ ∃ data : List Byte, data.length = n ∧ r.2.out = w.out ++ data ∧
      i.pend = bitsOf data ++ r.1.pend := by
  induction n generalizing i w with
  | zero => exact Good.ret ⟨hw, hi, [], rfl, by simp, rfl⟩
  | succ n ih =>
    rw [storedLoop]
    rcases hrd : i.rd with _ | ⟨b, rd⟩
    · exact Good.err
    · dsimp only
      refine Good.bind (outb_good w hi b) fun w' ⟨w1, w2⟩ => ?_
      refine Good.mono (ih { i with rd := rd } h8 ⟨hw.lo, hw.hi, hw.byte⟩ w' w1) id
        fun r ⟨r1, r2, data, r3, r4, r5⟩ => ⟨r1, r2, b :: data, by rw [List.length_cons, r3], by rw [r4, w2]; simp, ?_⟩
      rw [In.pend] at r5 ⊢
      dsimp only at r5
      rw [hrd, h8] at *
      have : lsb (8 - 8) (i.bval.toNat / 2 ^ 8) = [] := rfl
      rw [this, List.nil_append] at r5 ⊢
      rw [bitsOf_cons, bitsOf_cons, r5, List.append_assoc]

theorem nocomp_good {A : Prop} (i : In) (hw : i.WF) (w : Win) (hi : w.Inv) :
    Good A (nocomp i w) fun r => r.1.WF ∧ r.2.Inv ∧ ∃ pad data, pad.length = 8 - i.bpos ∧ data.length < 2 ^ 16 ∧
      r.2.out = w.out ++ data ∧
      i.pend = (pad ++ lsb 16 data.length ++ lsb 16 (2 ^ 16 - 1 - data.length) ++ bitsOf data) ++ r.1.pend := by
  have hp : i.pend = lsb (8 - i.bpos) (i.bval.toNat / 2 ^ i.bpos) ++ bitsOf i.rd := rfl
  obtain ⟨w0, p0⟩ := align_pend i hw _ _ hp (lsb_length _ _)
  have hm : (In.pend { i with bpos := 8 }).length % 8 = 0 := bpos_of_mod _ w0
  rw [nocomp]
  refine Good.bind (bits_good _ w0 16 (by omega)) fun p ⟨p1, p2, p3⟩ => ?_
  refine Good.bind (bits_good _ p1 16 (by omega)) fun q ⟨q1, q2, q3⟩ => ?_
  have h8 : q.2.bpos = 8 := by
    have h1 := bpos_of_mod q.2 q1
    have h2 := q1.hi
    rw [p3, q3] at hm
    simp only [List.length_append, lsb_length] at hm h1
    omega
  by_cases hx : p.1 = q.1 ^^^ 0xffff
  · rw [if_neg (by simpa using hx)]
    refine Good.mono (storedLoop_good p.1 q.2 h8 q1 w hi) id
      fun r ⟨r1, r2, data, r3, r4, r5⟩ => ⟨r1, r2, _, data, lsb_length _ (i.bval.toNat / 2 ^ i.bpos), by omega, r4, ?_⟩
    have hq : 2 ^ 16 - 1 - data.length = q.1 := by
      have h1 := xor_compl p.1 p2
      rw [hx] at h1
      have h2 := congrArg (· ^^^ 0xffff) h1
      simp only [Nat.xor_assoc, Nat.xor_self, Nat.xor_zero] at h2
      rw [r3, hx, h2]
    rw [hq, r3, hp, ← p0, p3, q3, r5]; simp
  · rw [if_pos hx]; exact Good.err

/-! ## Dynamic codes -/

theorem clOrder_nodup : ∀ c, (h : c < 19) → clOrder[c]'h ∉ clOrder.drop (c + 1) := by decide

theorem clLoop_good {A : Prop} (n c : Nat) (hn : c + n ≤ 19) (i : In) (hw : i.WF) (length : List Nat) (hlen : length.length = 320)
    (h8 : ∀ k, k < 19 → ∃ v, length[k]? = some v ∧ v < 8) :
    Good A (clLoop n c i length) fun r => r.1.WF ∧ r.2.length = 320 ∧ (∀ k, k < 19 → ∃ v, r.2[k]? = some v ∧ v < 8) ∧
      (∀ k, k ∉ (clOrder.drop c).take n → r.2[k]? = length[k]?) ∧
      i.pend = ((clOrder.drop c).take n).flatMap (fun k => lsb 3 (r.2.getD k 0)) ++ r.1.pend := by
  induction n generalizing c i length with
  | zero => exact Good.ret ⟨hw, hlen, h8, fun _ _ => rfl, by simp⟩
  | succ n ih =>
    have hc : c < clOrder.length := by show c < 19; omega
    have hk19 : clOrder[c] < 19 := coden_lt _ (List.getElem_mem hc)
    rw [clLoop]
    refine Good.bind (bits_good i hw 3 (by omega)) fun p ⟨p1, p2, p3⟩ => ?_
    rw [coden_eq, rdChk_ok hc, FM.lift_ok, FM.bind_ret, wrChk_ok _ (by omega), FM.lift_ok, FM.bind_ret]
    refine Good.mono (ih (c + 1) (by omega) p.2 p1 (length.set clOrder[c] p.1) (by rw [List.length_set]; exact hlen) ?_) id ?_
    · intro k hk
      by_cases e : k = clOrder[c]
      · rw [e]; exact ⟨p.1, List.getElem?_set_self (by omega), p2⟩
      · rw [List.getElem?_set_ne (by omega)]; exact h8 k hk
    · rintro r ⟨r1, r2, r3, r4, r5⟩
      rw [List.drop_eq_getElem_cons hc, List.take_succ_cons, List.flatMap_cons]
      refine ⟨r1, r2, r3, ?_, ?_⟩
      · intro k hk
        simp only [List.mem_cons, not_or] at hk
        rw [r4 k hk.2, List.getElem?_set_ne (by omega)]
      · have h1 := r4 clOrder[c] (fun hm => clOrder_nodup c hc (List.mem_of_mem_take hm))
        rw [List.getElem?_set_self (by omega)] at h1
        rw [p3, r5, List.append_assoc, List.getD_eq_getElem?_getD (i := clOrder[c]), h1]; rfl

theorem Lens.small {cl : List Nat} {tot : Nat} {pre : List Nat} {bs : List Bool} {full : List Nat} (h : Lens cl tot pre bs full)
    (hp : ∀ l ∈ pre, l ≤ 15) : ∀ l ∈ full, l ≤ 15 := by
  induction h with
  | done _ => exact hp
  | len hs _ _ ih =>
    apply ih
    intro l hl
    rcases List.mem_append.1 hl with h | h
    · exact hp l h
    · rw [List.mem_singleton.1 h]; omega
  | @copy pre v n b bs full _ _ _ ih =>
    apply ih
    intro l hl
    rcases List.mem_append.1 hl with h | h
    · exact hp l h
    · rw [(List.mem_replicate.1 h).2]; exact hp v (by simp)
  | zeros _ _ _ ih =>
    apply ih
    intro l hl
    rcases List.mem_append.1 hl with h | h
    · exact hp l h
    · rw [(List.mem_replicate.1 h).2]; omega
  | zeros' _ _ _ ih =>
    apply ih
    intro l hl
    rcases List.mem_append.1 hl with h | h
    · exact hp l h
    · rw [(List.mem_replicate.1 h).2]; omega

theorem lensLoop_good {A : Prop} (cl : List Nat) (hc : Hufc) (hf : hc.For cl) (tot : Nat) (ht : tot ≤ 320) (fuel : Nat) (pre : List Nat)
    (hpt : pre.length ≤ tot) (i : In) (hw : i.WF) (hfu : i.pend.length < fuel) (length : List Nat) (hlen : length.length = 320)
    (hpre : length.take pre.length = pre) :
    Good A (lensLoop hc tot fuel i pre.length length) fun r => r.1.WF ∧ r.2.length = 320 ∧
      ∃ bs, Lens cl tot pre bs (r.2.take tot) ∧ i.pend = bs ++ r.1.pend := by
  induction fuel generalizing pre i length with
  | zero => omega
  | succ fuel ih =>
    rw [lensLoop]
    by_cases hct : pre.length < tot
    · rw [if_pos hct]
      refine Good.bind (readcode_good hc cl hf i hw) fun p ⟨p1, b, p2, p3⟩ => ?_
      have hb1 := p2.pos
      have hl1 := congrArg List.length p3
      rw [List.length_append] at hl1
      by_cases h18 : p.1 > 18
      · rw [if_pos h18]; exact Good.err
      rw [if_neg h18]
      by_cases h16 : p.1 < 16
      · rw [if_pos h16, wrChk_ok _ (by omega), FM.lift_ok, FM.bind_ret]
        have := ih (pre ++ [p.1]) (by simp; omega) p.2 p1 (by omega) (length.set pre.length p.1)
          (by rw [List.length_set]; exact hlen) (set_ok _ _ hpre _ (by omega))
        rw [List.length_append, List.length_singleton] at this
        exact Good.mono this id fun r ⟨r1, r2, bs, r3, r4⟩ => ⟨r1, r2, b ++ bs, Lens.len h16 p2 r3, by
          rw [p3, r4, List.append_assoc]⟩
      · rw [if_neg h16]
        have h3 : p.1 = 16 ∨ p.1 = 17 ∨ p.1 = 18 := by omega
        have zcase : ∀ (m : Nat) (x : Nat × In), x.2.WF → x.2.pend.length ≤ p.2.pend.length →
            (∀ r : In × List Nat, ∀ bs, Lens cl tot (pre ++ List.replicate m 0) bs (r.2.take tot) → x.2.pend = bs ++ r.1.pend →
              ∃ bs', Lens cl tot pre bs' (r.2.take tot) ∧ i.pend = bs' ++ r.1.pend) →
            Good A (if pre.length + m > tot then FM.err .format
              else FM.lift (fill length pre.length (pre.length + m) 0) >>= fun l =>
                lensLoop hc tot fuel x.2 (pre.length + m) l) fun r => r.1.WF ∧ r.2.length = 320 ∧
                  ∃ bs, Lens cl tot pre bs (r.2.take tot) ∧ i.pend = bs ++ r.1.pend := by
          intro m x x1 xl hfin
          by_cases hm : pre.length + m > tot
          · rw [if_pos hm]; exact Good.err
          · rw [if_neg hm]
            obtain ⟨l₁, k1, k2, k3⟩ := fill_ok length pre hpre m 0 (by omega)
            rw [k1, FM.lift_ok, FM.bind_ret]
            have := ih (pre ++ List.replicate m 0) (by simp; omega) x.2 x1 (by omega) l₁ (by omega) k3
            rw [List.length_append, List.length_replicate] at this
            exact Good.mono this id fun r ⟨r1, r2, bs, r3, r4⟩ => ⟨r1, r2, hfin r bs r3 r4⟩
        rcases h3 with h | h | h <;> rw [h] at p2 ⊢
        · show Good A (bits p.2 2 >>= _) _
          refine Good.bind (bits_good p.2 p1 2 (by omega)) fun x ⟨x1, x2, x3⟩ => ?_
          have hl2 := congrArg List.length x3
          rw [List.length_append] at hl2
          rw [if_pos rfl]
          by_cases hm : pre.length = 0 ∨ pre.length + (x.1 + 3) > tot
          · rw [if_pos hm]; exact Good.err
          · rw [if_neg hm]
            obtain ⟨hm1, hm2⟩ := not_or.1 hm
            obtain ⟨pre', v, rfl⟩ : ∃ pre' v, pre = pre' ++ [v] := by
              rcases List.eq_nil_or_concat pre with h0 | ⟨a, b, h0⟩
              · rw [h0] at hm1; simp at hm1
              · exact ⟨a, b, by rw [h0, List.concat_eq_append]⟩
            have hlast : length[(pre' ++ [v]).length - 1]? = some v := by
              rw [← List.getElem?_take_of_lt (show (pre' ++ [v]).length - 1 < (pre' ++ [v]).length by simp), hpre]; simp
            rw [show rdChk length ((pre' ++ [v]).length - 1) = .ok v by rw [rdChk, hlast], FM.lift_ok, FM.bind_ret]
            obtain ⟨l₁, k1, k2, k3⟩ := fill_ok length (pre' ++ [v]) hpre (x.1 + 3) v (by omega)
            rw [k1, FM.lift_ok, FM.bind_ret]
            have := ih (pre' ++ [v] ++ List.replicate (x.1 + 3) v) (by rw [List.length_append, List.length_replicate]; omega)
              x.2 x1 (by omega) l₁ (by omega) k3
            rw [List.length_append, List.length_replicate] at this
            refine Good.mono this id fun r ⟨r1, r2, bs, r3, r4⟩ => ⟨r1, r2, b ++ lsb 2 x.1 ++ bs, Lens.copy x2 p2 ?_, ?_⟩
            · rw [Nat.add_comm 3]; exact r3
            · rw [p3, x3, r4]; simp
        · show Good A (bits p.2 3 >>= _) _
          refine Good.bind (bits_good p.2 p1 3 (by omega)) fun x ⟨x1, x2, x3⟩ => ?_
          have hl2 := congrArg List.length x3
          rw [List.length_append] at hl2
          rw [if_neg (by omega)]
          exact zcase (x.1 + 3) x x1 (by omega) fun r bs r3 r4 => ⟨b ++ lsb 3 x.1 ++ bs, Lens.zeros x2 p2 (by
            rw [Nat.add_comm 3]; exact r3), by rw [p3, x3, r4]; simp⟩
        · show Good A (bits p.2 7 >>= _) _
          refine Good.bind (bits_good p.2 p1 7 (by omega)) fun x ⟨x1, x2, x3⟩ => ?_
          have hl2 := congrArg List.length x3
          rw [List.length_append] at hl2
          rw [if_neg (by omega)]
          exact zcase (x.1 + 11) x x1 (by omega) fun r bs r3 r4 => ⟨b ++ lsb 7 x.1 ++ bs, Lens.zeros' x2 p2 (by
            rw [Nat.add_comm 11]; exact r3), by rw [p3, x3, r4]; simp⟩
    · rw [if_neg hct]
      have he : pre.length = tot := by omega
      refine Good.ret ⟨hw, hlen, [], ?_, rfl⟩
      dsimp only
      rw [← he, hpre]
      exact Lens.done rfl

theorem dynamic_good {A : Prop} (J : Junk) (hJ : J.Sized) (p : Nat) (i : In) (hw : i.WF) (w : Win) (hi : w.Inv) :
    Good A (dynamic J i w) fun r => r.1.WF ∧ r.2.Inv ∧ ∃ bs, Block False p 2 w.out bs r.2.out ∧ i.pend = bs ++ r.1.pend := by
  have hs288 : J.symbol.length = 288 := hJ.symbol
  rw [dynamic]
  refine Good.bind (bits_good i hw 5 (by omega)) fun a ⟨a1, a2, a3⟩ => ?_
  dsimp only
  by_cases ha : a.1 + 257 > 286
  · rw [if_pos ha]; exact Good.err
  rw [if_neg ha]
  refine Good.bind (bits_good a.2 a1 5 (by omega)) fun b ⟨b1, b2, b3⟩ => ?_
  by_cases hb : b.1 + 1 > 30
  · rw [if_pos hb]; exact Good.err
  rw [if_neg hb]
  refine Good.bind (bits_good b.2 b1 4 (by omega)) fun c ⟨c1, c2, c3⟩ => ?_
  obtain ⟨l₀, k1, k2⟩ := ClInv.init [] J hJ
  rw [k1, FM.lift_ok, FM.bind_ret]
  have hz : ∀ k, k < 19 → l₀[k]? = some 0 := by
    intro k hk
    have := k2.2 k hk
    simpa using this
  have hnc : c.1 + 4 ≤ 19 := by omega
  refine Good.bind (clLoop_good (c.1 + 4) 0 (by omega) c.2 c1 l₀ k2.1 (fun k hk => ⟨0, hz k hk, by omega⟩)) ?_
  rintro s ⟨s1, s2, s3, s4, s5⟩
  rw [List.drop_zero] at s4 s5
  rw [slice_prefix (by omega), FM.lift_ok, FM.bind_ret]
  have hcl8 : ∀ l ∈ s.2.take 19, l < 8 := by
    intro l hl
    obtain ⟨k, hk, e⟩ := List.mem_take_iff_getElem.1 hl
    obtain ⟨v, v1, v2⟩ := s3 k (by omega)
    rw [List.getElem?_eq_getElem (by omega)] at v1
    simp only [Option.some.injEq] at v1
    omega
  have hcl19 : (s.2.take 19).length = 19 := by rw [List.length_take]; omega
  obtain ⟨hc, o1, o2⟩ := mkhufc_ok (s.2.take 19) (fun l hl => by have := hcl8 l hl; omega) J.symbol (by omega)
  rw [o1, FM.lift_ok, FM.bind_ret]
  refine Good.bind (lensLoop_good (s.2.take 19) hc o2 (a.1 + 257 + (b.1 + 1)) (by omega) (s.1.fuel + 1) [] (by simp) s.1 s1
    (by have := pend_lt_fuel s.1 s1; omega) s.2 s2 rfl) ?_
  rintro t ⟨t1, t2, lb, t3, t4⟩
  have hsm := t3.small (by simp)
  rw [rdChk_ok (by omega), FM.lift_ok, FM.bind_ret]
  by_cases he : t.2[256] = 0
  · rw [if_pos he]; exact Good.err
  rw [if_neg he, slice_prefix (by omega), FM.lift_ok, FM.bind_ret, slice_ok (by omega) (by omega)]
  obtain ⟨ll, hll⟩ : ∃ ll, ll = t.2.take (a.1 + 257) := ⟨_, rfl⟩
  obtain ⟨dl, hdl⟩ : ∃ dl, dl = (t.2.take (a.1 + 257 + (b.1 + 1))).drop (a.1 + 257) := ⟨_, rfl⟩
  have happ : ll ++ dl = t.2.take (a.1 + 257 + (b.1 + 1)) := by
    rw [hll, hdl, ← List.take_append_drop (a.1 + 257) (t.2.take (a.1 + 257 + (b.1 + 1))), List.take_take,
      Nat.min_eq_left (by omega), List.drop_left' (by rw [List.length_take]; omega)]
  have hlll : ll.length = a.1 + 257 := by rw [hll, List.length_take]; omega
  have hdll : dl.length = b.1 + 1 := by rw [hdl, List.length_drop, List.length_take]; omega
  rw [← hll, ← hdl]
  rw [← happ] at t3 hsm
  obtain ⟨hl, r1, r2⟩ := mkhufc_ok ll (fun l hl => hsm l (List.mem_append_left _ hl)) J.symbol (by omega)
  obtain ⟨hd, u1, u2⟩ := mkhufc_ok dl (fun l hl => hsm l (List.mem_append_right _ hl)) J.symbol (by omega)
  rw [r1, FM.lift_ok, FM.bind_ret, FM.lift_ok, FM.bind_ret, u1, FM.lift_ok, FM.bind_ret]
  refine Good.mono (decomp_good ll dl hl hd r2 u2 (.inl (by omega)) (.inl (by omega)) _ t.1 t1 w hi (pend_lt_fuel t.1 t1)) id ?_
  rintro r ⟨x1, x2, bs, x3, x4⟩
  refine ⟨x1, x2, _, Block.dynamic (cl := s.2.take 19) (ncode := c.1 + 4) (by omega) (by omega) (by omega) (by omega) (by omega)
    (by omega) hcl19 hcl8 ?_ False.elim ?_ (by rw [hlll, hdll]; exact t3) x3, ?_⟩
  · intro k hk
    have hk19 := coden_lt k (List.mem_of_mem_drop hk)
    rw [List.getElem?_take_of_lt hk19, s4 k, hz k hk19]
    intro hk'
    obtain ⟨j, hj1, hj2⟩ := List.mem_take_iff_getElem.1 hk'
    have hl19 : clOrder.length = 19 := rfl
    have hj : j < 19 := by omega
    refine clOrder_nodup j hj ?_
    show clOrder[j]'(by omega) ∈ _
    rw [hj2]
    have : clOrder.drop (c.1 + 4) = (clOrder.drop (j + 1)).drop (c.1 + 4 - (j + 1)) := by
      rw [List.drop_drop]; congr 1; omega
    rw [this] at hk
    exact List.mem_of_mem_drop hk
  · rw [hll, List.getElem?_take_of_lt (by omega), List.getElem?_eq_getElem (by omega)]
    simpa using he
  · have hfm : (clOrder.take (c.1 + 4)).flatMap (fun k => lsb 3 (s.2.getD k 0))
        = (clOrder.take (c.1 + 4)).flatMap (fun k => lsb 3 ((s.2.take 19).getD k 0)) := by
      rw [List.flatMap_def, List.flatMap_def]
      congr 1
      apply List.map_congr_left
      intro k hk
      have hk19 := coden_lt k (List.mem_of_mem_take hk)
      rw [List.getD_eq_getElem?_getD, List.getD_eq_getElem?_getD, List.getElem?_take_of_lt hk19]
    rw [a3, b3, c3, s5, t4, x4, hlll, hdll, hfm, show a.1 + 257 - 257 = a.1 by omega, show b.1 + 1 - 1 = b.1 by omega,
      show c.1 + 4 - 4 = c.1 by omega]
    simp

/-! ## Streams -/

theorem block_good {A : Prop} (J : Junk) (hJ : J.Sized) (p ty : Nat) (hA : ty = 1 → A) (i : In) (hw : i.WF) (w : Win) (hi : w.Inv)
    (hal : (p + i.pend.length) % 8 = 0) :
    Good A (block J ty i w) fun r => r.1.WF ∧ r.2.Inv ∧ ∃ bs, Block False p ty w.out bs r.2.out ∧ i.pend = bs ++ r.1.pend := by
  rw [block]
  by_cases h0 : ty = 0
  · subst h0
    rw [if_pos rfl]
    refine Good.mono (nocomp_good i hw w hi) id fun r ⟨r1, r2, pad, data, r3, r4, r5, r6⟩ => ⟨r1, r2, _, ?_, r6⟩
    rw [r5]
    have hm := bpos_of_mod i hw
    have := hw.lo
    exact Block.stored (by omega) r4
  rw [if_neg h0]
  by_cases h1 : ty = 1
  · subst h1
    rw [if_pos rfl]
    exact Good.mono (fixed_good (hA rfl) i hw w hi) id fun r ⟨r1, r2, bs, r3, r4⟩ => ⟨r1, r2, bs, Block.fixed r3, r4⟩
  rw [if_neg h1]
  by_cases h2 : ty = 2
  · subst h2
    rw [if_pos rfl]
    exact dynamic_good J hJ p i hw w hi
  rw [if_neg h2]
  exact Good.err

theorem decodeLoop_good {A : Prop} (J : Junk) (hJ : J.Sized) (fuel : Nat) (p : Nat) (i : In) (hw : i.WF) (w : Win) (hi : w.Inv)
    (hf : i.pend.length < fuel) (hal : (p + i.pend.length) % 8 = 0)
    (hA : ∀ bs out b rest, Blocks False p w.out bs out → i.pend = bs ++ b :: lsb 2 1 ++ rest → A) :
    Good A (decodeLoop J fuel i w) fun r => r.1.WF ∧ r.2.Inv ∧
      ∃ bs, Stream False p w.out bs r.2.out ∧ i.pend = bs ++ r.1.pend := by
  induction fuel generalizing p i w with
  | zero => omega
  | succ fuel ih =>
    rw [decodeLoop]
    refine Good.bind (bits_good i hw 1 (by omega)) fun a ⟨a1, a2, a3⟩ => ?_
    refine Good.bind (bits_good a.2 a1 2 (by omega)) fun b ⟨b1, b2, b3⟩ => ?_
    have l1 := congrArg List.length a3
    have l2 := congrArg List.length b3
    rw [List.length_append, lsb_length] at l1 l2
    refine Good.bind (block_good J hJ (p + 3) b.1 (fun h1 => hA [] w.out (decide (a.1 % 2 = 1)) b.2.pend Blocks.none (by
      rw [a3, b3, h1]; simp [lsb])) b.2 b1 w hi (by omega)) fun c ⟨c1, c2, bs, c3, c4⟩ => ?_
    have l3 := congrArg List.length c4
    rw [List.length_append] at l3
    by_cases h1 : a.1 = 1
    · rw [if_pos h1]
      refine Good.ret ⟨c1, c2, _, Stream.last c3, ?_⟩
      rw [a3, b3, c4, h1]; simp [lsb]
    · rw [if_neg h1]
      have h0 : a.1 = 0 := by omega
      refine Good.mono (ih (p + 3 + bs.length) c.1 c1 c.2 c2 (by omega) (by omega) ?_) id
        fun r ⟨r1, r2, bs', r3, r4⟩ => ⟨r1, r2, _, Stream.more c3 r3, ?_⟩
      · intro bs' out' b' rest' q1 q2
        refine hA _ out' b' rest' (Blocks.more c3 q1) ?_
        rw [a3, b3, c4, q2, h0]; simp [lsb]
      · rw [a3, b3, c4, r4, h0]; simp [lsb]

end Verif.Flate
