import Verif.Bio.Reads

/-!
# Writing calls
-/

namespace Verif.Bio

open Verif.Utf

/-- Well-formed file with a write buffer of `B` bytes. -/
structure WWF (B : Nat) (f : Wr) : Prop where
  cap : f.wend ≤ f.wbuf.length
  len : f.wbuf.length = B

/-- What was written but not yet handed to the sink. -/
def Wr.held (f : Wr) : List Byte := f.wbuf.take f.wend

/-- Everything the sink has and will get. -/
def Wr.all (f : Wr) : List Byte := f.snk.out ++ f.held

theorem snk_write_ok {s s' : Snk} {bs : List Byte} {n : Nat} (h : s.write bs = (.ok n, s')) :
    s'.out = s.out ++ bs.take n ∧ n ≤ bs.length ∧ (s.Honest → s'.Honest ∧ (bs ≠ [] → 0 < n)) := by
  unfold Snk.write at h
  split at h
  · injection h with h1 h2
    injection h1 with h1
    subst h1 h2
    refine ⟨by simp, Nat.le_refl _, fun _ => ⟨?_, fun hb => List.length_pos_iff.2 hb⟩⟩
    intro a ha; simp at ha
  · rename_i k p hp
    injection h with h1 h2
    injection h1 with h1
    subst h1 h2
    refine ⟨?_, Nat.min_le_right _ _, fun hh => ⟨?_, fun hb => ?_⟩⟩
    · simp only
      congr 1
      by_cases hk : k ≤ bs.length
      · rw [Nat.min_eq_left hk]
      · rw [Nat.min_eq_right (by omega), List.take_of_length_le (by omega), List.take_length]
    · intro a ha; exact hh a (by rw [hp]; exact List.mem_cons_of_mem _ ha)
    · obtain ⟨k', hk, e2⟩ := hh (.give k) (by rw [hp]; exact List.mem_cons_self)
      injection e2 with e2
      have := List.length_pos_iff.2 hb
      omega
  · injection h with h1 h2; cases h1

theorem snk_write_err {s s' : Snk} {bs : List Byte} {e : Errno} (h : s.write bs = (.error e, s')) :
    s'.out = s.out ∧ ¬ s.Honest := by
  unfold Snk.write at h
  split at h
  · injection h with h1 h2; cases h1
  · injection h with h1 h2; cases h1
  · rename_i e' p hp
    injection h with h1 h2
    subst h2
    refine ⟨rfl, fun hh => ?_⟩
    obtain ⟨k, _, e2⟩ := hh (.fail e') (by rw [hp]; exact List.mem_cons_self)
    cases e2

theorem wbLoop_spec : ∀ (fuel : Nat) (s : Snk) (src : List Byte) (count : Nat), src.length < fuel →
    ∃ s' r, wbLoop fuel s src count = .ok (s', r) ∧
      (∃ t, t <+: src ∧ s'.out = s.out ++ t ∧ (∀ n, r = .ok n → t = src ∧ n = count + src.length)) ∧
      (s.Honest → s'.Honest ∧ ∃ n, r = .ok n) := by
  intro fuel
  induction fuel with
  | zero => intro s src count h; omega
  | succ fuel ih =>
    intro s src count hf
    unfold wbLoop
    by_cases h0 : src.length ≠ 0
    · rw [if_pos h0]
      have hne : src ≠ [] := fun e => by subst e; simp at h0
      rcases hr : s.write src with ⟨r, s1⟩
      rcases r with e | n
      · obtain ⟨h1, h2⟩ := snk_write_err hr
        refine ⟨s1, _, rfl, ⟨[], List.nil_prefix, by simp [h1], (fun n h => by cases h)⟩, fun hh => absurd hh h2⟩
      · obtain ⟨h1, h2, h3⟩ := snk_write_ok hr
        cases n with
        | zero =>
          refine ⟨s1, _, rfl, ⟨[], List.nil_prefix, by simpa using h1, (fun n h => by cases h)⟩, fun hh => ?_⟩
          have := (h3 hh).2 hne; omega
        | succ n =>
          simp only
          rw [slice_suffix h2, Res.bind_ok]
          obtain ⟨s', r, e1, ⟨t, e2, e3, e4⟩, e5⟩ := ih s1 (src.drop (n + 1)) (count + (n + 1))
            (by rw [List.length_drop]; omega)
          refine ⟨s', r, e1, ⟨src.take (n + 1) ++ t, ?_, ?_, ?_⟩, fun hh => e5 (h3 hh).1⟩
          · conv => rhs; rw [← List.take_append_drop (n + 1) src]
            exact (List.prefix_append_right_inj _).2 e2
          · rw [e3, h1, List.append_assoc]
          · intro m hm
            obtain ⟨a, b⟩ := e4 m hm
            refine ⟨by rw [a, List.take_append_drop], ?_⟩
            rw [b, List.length_drop]; omega
    · rw [if_neg h0]
      have : src = [] := List.length_eq_zero_iff.1 (by omega)
      subst this
      exact ⟨s, _, rfl, ⟨[], List.nil_prefix, by simp, fun n h => ⟨rfl, by injection h with h; simp [h]⟩⟩,
        fun hh => ⟨hh, count, rfl⟩⟩

theorem writebuf_spec (f : Wr) (src : List Byte) :
    ∃ s' r, writebuf f src = .ok ({ f with snk := s' }, r) ∧
      (∃ t, t <+: src ∧ s'.out = f.snk.out ++ t ∧ (∀ n, r = .ok n → t = src ∧ n = src.length)) ∧
      (f.snk.Honest → s'.Honest ∧ ∃ n, r = .ok n) := by
  obtain ⟨s', r, h1, ⟨t, h2, h3, h4⟩, h5⟩ := wbLoop_spec (src.length + 1) f.snk src 0 (by omega)
  unfold writebuf
  rw [h1]
  exact ⟨s', r, rfl, ⟨t, h2, h3, fun n hn => ⟨(h4 n hn).1, by have := (h4 n hn).2; omega⟩⟩, h5⟩

theorem flush_spec {B : Nat} {f : Wr} (hw : WWF B f) :
    ∃ f' b, flush f = .ok (f', b) ∧ WWF B f' ∧ f'.held = [] ∧
      (∃ t, t <+: f.held ∧ f'.snk.out = f.snk.out ++ t ∧ (b = true → t = f.held)) ∧
      (f.snk.Honest → f'.snk.Honest ∧ b = true) := by
  unfold flush
  rw [slice_prefix hw.cap, Res.bind_ok]
  obtain ⟨s', r, h1, ⟨t, h2, h3, h4⟩, h5⟩ := writebuf_spec f (f.wbuf.take f.wend)
  simp only [h1, Res.bind_ok, Res.pure_eq]
  have hl : (f.wbuf.take f.wend).length = f.wend := by rw [List.length_take]; have := hw.cap; omega
  refine ⟨_, _, rfl, ⟨Nat.zero_le _, hw.len⟩, rfl, ⟨t, h2, h3, ?_⟩, fun hh => ⟨(h5 hh).1, ?_⟩⟩
  · cases r with
    | ok n => intro _; exact (h4 n rfl).1
    | error e => intro h; cases h
  · obtain ⟨n, hn⟩ := (h5 hh).2
    subst hn
    have := (h4 n rfl).2
    simp only [beq_iff_eq]
    omega

/-- What a writing call does: nothing is lost or invented if it reports success. -/
structure WOk (B : Nat) (bs : List Byte) (f f' : Wr) (b : Bool) : Prop where
  wf : WWF B f'
  ok : b = true → f'.all = f.all ++ bs
  honest : f.snk.Honest → f'.snk.Honest ∧ b = true
  grow : f.snk.out.length ≤ f'.snk.out.length

theorem ensurewrite_spec {B n : Nat} {f : Wr} (hw : WWF B f) (hn : n < B) :
    ∃ f' r, ensurewrite f n = .ok (f', r) ∧ WWF B f' ∧
      (∀ k, r = .ok k → f'.all = f.all ∧ n ≤ B - f'.wend) ∧
      (f.snk.Honest → f'.snk.Honest ∧ ∃ k, r = .ok k) ∧ f.snk.out.length ≤ f'.snk.out.length := by
  unfold ensurewrite
  have hl := hw.len
  rw [if_neg (by omega)]
  by_cases h : n > f.wbuf.length - f.wend
  · rw [if_pos h, slice_prefix hw.cap, Res.bind_ok]
    obtain ⟨s', r, h1, ⟨t, h2, h3, h4⟩, h5⟩ := writebuf_spec f (f.wbuf.take f.wend)
    simp only [h1, Res.bind_ok, Res.pure_eq]
    cases r with
    | error e =>
      refine ⟨_, _, rfl, ⟨hw.cap, hw.len⟩, (fun k hk => by cases hk), fun hh => ?_, by simp [h3]⟩
      obtain ⟨n, hn⟩ := (h5 hh).2; cases hn
    | ok k =>
      refine ⟨_, _, rfl, ⟨Nat.zero_le _, hw.len⟩, fun k' hk => ⟨?_, by show n ≤ B - 0; omega⟩,
        fun hh => ⟨(h5 hh).1, k, rfl⟩, by simp [h3]⟩
      simp only [Wr.all, Wr.held, h3, List.take_zero, List.append_nil, (h4 k rfl).1]
  · rw [if_neg h]
    exact ⟨f, _, rfl, hw, fun k hk => ⟨rfl, by omega⟩, fun hh => ⟨hh, n, rfl⟩, Nat.le_refl _⟩

theorem write_small {B : Nat} {f : Wr} (hw : WWF B f) {bs : List Byte} (h : bs.length ≤ B - f.wend) :
    ∃ f', write f bs = .ok (f', .ok bs.length) ∧ WWF B f' ∧ f'.all = f.all ++ bs ∧ f'.snk = f.snk := by
  have hl := hw.len
  have hc := hw.cap
  unfold write
  rw [if_pos (by omega), slice_ok (by omega) (by omega), Res.bind_ok]
  have e1 := store_take (l := f.wbuf) (bs := bs) (i := f.wend) (by omega)
  have e2 := store_length (l := f.wbuf) (bs := bs) (i := f.wend) (by omega)
  refine ⟨_, rfl, ⟨by show f.wend + bs.length ≤ (store _ _ _).length; rw [e2]; omega,
    by show (store _ _ _).length = B; rw [e2]; exact hl⟩, ?_, rfl⟩
  simp only [Wr.all, Wr.held, e1, List.append_assoc]

theorem write_big {B : Nat} {f : Wr} (hw : WWF B f) {bs : List Byte} (h : ¬ bs.length ≤ B - f.wend) :
    ∃ f' r, write f bs = .ok (f', r) ∧ WWF B f' ∧
      (f.snk.Honest → f'.snk.Honest ∧ r.isOk = true ∧ f'.all = f.all ++ bs) ∧
      (f.held = [] → r.isOk = true → f'.all = f.all ++ bs) ∧ f.snk.out.length ≤ f'.snk.out.length := by
  have hl := hw.len
  unfold write
  rw [if_neg (by omega)]
  obtain ⟨g, b, h1, h2, h3, ⟨t, h4, h5, h6⟩, h7⟩ := flush_spec hw
  obtain ⟨s', r, i1, ⟨u, i2, i3, i4⟩, i5⟩ := writebuf_spec g bs
  simp only [h1, Res.bind_ok, i1]
  have e : ∀ n, r = .ok n → t = f.held → Wr.all { g with snk := s' } = f.all ++ bs := by
    intro n hn ht
    have hg : g.wbuf.take g.wend = [] := h3
    simp only [Wr.all, Wr.held, i3, h5, hg, (i4 n hn).1, List.append_nil, ht]
  refine ⟨_, r, rfl, ⟨h2.cap, h2.len⟩, fun hh => ?_, fun he hr => ?_, ?_⟩
  · obtain ⟨a, b'⟩ := h7 hh
    obtain ⟨c, n, hn⟩ := i5 a
    exact ⟨c, by rw [hn]; rfl, e n hn (h6 b')⟩
  · cases r with
    | error _ => cases hr
    | ok n =>
      refine e n rfl ?_
      rw [he, List.prefix_nil] at h4
      rw [h4, he]
  · show f.snk.out.length ≤ s'.out.length
    rw [i3, h5]; simp only [List.length_append]; omega

theorem putb_ok {B : Nat} {f : Wr} (hw : WWF B f) (hB : 8 < B) (b : Byte) :
    ∃ f' r, wperform (.putb b) f = .ok (f', r) ∧ WOk B [b] f f' r := by
  obtain ⟨g, r, h1, h2, h3, h4, h9⟩ := ensurewrite_spec (n := 1) hw (by omega)
  simp only [wperform, putb, h1, Res.bind_ok]
  cases r with
  | error e =>
    refine ⟨g, false, rfl, ⟨h2, (fun h => by cases h), fun hh => ?_, h9⟩⟩
    obtain ⟨n, hn⟩ := (h4 hh).2; cases hn
  | ok k =>
    obtain ⟨a1, a2⟩ := h3 k rfl
    have hl := h2.len
    have hwe : g.wend < g.wbuf.length := by omega
    simp only [wrChk_ok b hwe, Res.bind_ok, Res.pure_eq, Res.map_ok]
    refine ⟨_, _, rfl, ⟨⟨?_, ?_⟩, fun _ => ?_, fun hh => ⟨(h4 hh).1, rfl⟩, h9⟩⟩
    · show g.wend + 1 ≤ (g.wbuf.set _ _).length; rw [List.length_set]; omega
    · show (g.wbuf.set _ _).length = B; rw [List.length_set]; exact hl
    · rw [← a1]
      simp only [Wr.all, Wr.held, List.append_assoc]
      congr 1
      rw [List.take_add, List.take_set_of_le (Nat.le_refl _), List.drop_eq_getElem_cons (by simpa using hwe)]
      simp

theorem putc_ok {B : Nat} {f : Wr} (hw : WWF B f) (hB : 8 < B) {c : Char32} (hc : c.toNat < 0x110000) :
    ∃ f' r, wperform (.putc c) f = .ok (f', r) ∧ WOk B (utf8 c.toNat) f f' r := by
  obtain ⟨e1, e2⟩ : charlen c = (utf8 c.toNat).length ∧ ∀ buf, (utf8 c.toNat).length ≤ buf.length →
      encode buf c = .ok (((utf8 c.toNat).length : Int), utf8 c.toNat ++ buf.drop (utf8 c.toNat).length) := by
    have h := encode_utf8 c.toNat hc
    rw [ofNat_toNat] at h
    exact ⟨(h []).1, fun buf hb => by rw [(h buf).2, if_pos hb]⟩
  have h4' : (utf8 c.toNat).length ≤ 4 := by
    unfold utf8; (repeat' split) <;> simp
  obtain ⟨g, r, h1, h2, h3, h4, h9⟩ := ensurewrite_spec (n := charlen c) hw (by omega)
  simp only [wperform, putc, h1, Res.bind_ok]
  cases r with
  | error e =>
    refine ⟨g, false, rfl, ⟨h2, (fun h => by cases h), fun hh => ?_, h9⟩⟩
    obtain ⟨n, hn⟩ := (h4 hh).2; cases hn
  | ok k =>
    obtain ⟨a1, a2⟩ := h3 k rfl
    have hl := h2.len
    have hcap := h2.cap
    simp only [slice_suffix h2.cap, Res.bind_ok,
      e2 (g.wbuf.drop g.wend) (by rw [List.length_drop]; omega), Res.pure_eq, Res.map_ok]
    have hlen : (g.wbuf.take g.wend ++ (utf8 c.toNat ++ (g.wbuf.drop g.wend).drop (utf8 c.toNat).length)).length
        = B := by
      simp; omega
    refine ⟨_, _, rfl, ⟨⟨?_, hlen⟩, fun _ => ?_, fun hh => ⟨(h4 hh).1, rfl⟩, h9⟩⟩
    · show g.wend + charlen c ≤ (g.wbuf.take g.wend ++ _).length
      rw [hlen]; omega
    · rw [← a1]
      simp only [Wr.all, Wr.held, List.append_assoc]
      congr 1
      have hg : (g.wbuf.take g.wend).length = g.wend := by rw [List.length_take]; omega
      rw [e1, ← List.append_assoc, List.take_append_of_le_length (by simp; omega),
        List.take_of_length_le (by simp)]

/-! ### Integers -/

theorem byte_at (v : BitVec 64) (i : Nat) :
    ((v >>> (8 * i)) &&& 0xff#64).setWidth 8 = BitVec.ofNat 8 (v.toNat / 256 ^ i % 256) := by
  apply BitVec.eq_of_toNat_eq
  rw [BitVec.toNat_setWidth, BitVec.toNat_and, BitVec.toNat_ushiftRight, BitVec.toNat_ofNat,
    Nat.shiftRight_eq_div_pow, show 255 % 2 ^ 64 = 2 ^ 8 - 1 from rfl,
    Nat.and_two_pow_sub_one_eq_mod, Nat.mod_mod, BitVec.toNat_ofNat,
    show (256 : Nat) = 2 ^ 8 from rfl, ← Nat.pow_mul, Nat.mod_mod]

theorem leBytes_eq (v : BitVec 64) : leBytes v = lowBytes v.toNat 8 := by
  have h := byte_at v
  simp only [leBytes, lowBytes, Nat.div_div_eq_div_mul]
  have e : ∀ i k, 8 * i = k → ((v >>> k) &&& 0xff#64).setWidth 8 = BitVec.ofNat 8 (v.toNat / 256 ^ i % 256) :=
    fun i k hk => hk ▸ h i
  rw [e 0 0 rfl, e 1 8 rfl, e 2 16 rfl, e 3 24 rfl, e 4 32 rfl, e 5 40 rfl, e 6 48 rfl, e 7 56 rfl]
  simp

theorem beBytes_eq (v : BitVec 64) : beBytes v = (lowBytes v.toNat 8).reverse := by
  rw [← leBytes_eq]; rfl

theorem lowBytes_length (v n : Nat) : (lowBytes v n).length = n := by
  induction n generalizing v with
  | zero => rfl
  | succ n ih => rw [lowBytes, List.length_cons, ih]

theorem lowBytes_take (v n m : Nat) (h : n ≤ m) : (lowBytes v m).take n = lowBytes v n := by
  induction n generalizing v m with
  | zero => rfl
  | succ n ih =>
    cases m with
    | zero => omega
    | succ m => rw [lowBytes, List.take_succ_cons, ih _ _ (by omega), lowBytes]

theorem lowBytes_val (v n : Nat) : leVal (lowBytes v n) = v % 256 ^ n := by
  induction n generalizing v with
  | zero => simp [lowBytes, leVal, Nat.mod_one]
  | succ n ih =>
    rw [lowBytes, leVal, ih, BitVec.toNat_ofNat, Nat.mod_mod, Nat.pow_succ, Nat.mul_comm (256 ^ n),
      Nat.mod_mul]

theorem putle_ok {B n : Nat} {f : Wr} (hw : WWF B f) (hB : 8 < B) (v : BitVec 64) (hn : n ≤ 8) :
    ∃ f' r, wperform (.putle v n) f = .ok (f', r) ∧ WOk B (lowBytes v.toNat n) f f' r := by
  obtain ⟨g, r, h1, h2, h3, h4, h9⟩ := ensurewrite_spec (n := n) hw (by omega)
  simp only [wperform, putle, h1, Res.bind_ok]
  cases r with
  | error e =>
    refine ⟨g, false, rfl, ⟨h2, (fun h => by cases h), fun hh => ?_, h9⟩⟩
    obtain ⟨n, hn⟩ := (h4 hh).2; cases hn
  | ok k =>
    obtain ⟨a1, a2⟩ := h3 k rfl
    simp only
    rw [slice_prefix (by show n ≤ 8; exact hn), Res.bind_ok, leBytes_eq, lowBytes_take _ _ _ hn]
    obtain ⟨f', b1, b2, b3, b4⟩ := write_small h2 (bs := lowBytes v.toNat n)
      (by rw [lowBytes_length]; exact a2)
    rw [b1]
    exact ⟨f', _, rfl, ⟨b2, fun _ => by rw [b3, a1], fun hh => ⟨by rw [b4]; exact (h4 hh).1, rfl⟩, by rw [b4]; exact h9⟩⟩

theorem putbe_ok {B n : Nat} {f : Wr} (hw : WWF B f) (hB : 8 < B) (v : BitVec 64) (hn : n ≤ 8) :
    ∃ f' r, wperform (.putbe v n) f = .ok (f', r) ∧ WOk B (lowBytes v.toNat n).reverse f f' r := by
  obtain ⟨g, r, h1, h2, h3, h4, h9⟩ := ensurewrite_spec (n := n) hw (by omega)
  simp only [wperform, putbe, h1, Res.bind_ok]
  cases r with
  | error e =>
    refine ⟨g, false, rfl, ⟨h2, (fun h => by cases h), fun hh => ?_, h9⟩⟩
    obtain ⟨n, hn⟩ := (h4 hh).2; cases hn
  | ok k =>
    obtain ⟨a1, a2⟩ := h3 k rfl
    simp only
    have e : slice (beBytes v) (8 - n) 8 = .ok (lowBytes v.toNat n).reverse := by
      rw [slice_ok (by omega) (by show 8 ≤ 8; exact Nat.le_refl _),
        List.take_of_length_le (by show 8 ≤ 8; exact Nat.le_refl _), beBytes_eq, List.drop_reverse,
        lowBytes_length, show 8 - (8 - n) = n by omega, lowBytes_take _ _ _ hn]
    rw [e, Res.bind_ok]
    obtain ⟨f', b1, b2, b3, b4⟩ := write_small h2 (bs := (lowBytes v.toNat n).reverse)
      (by rw [List.length_reverse, lowBytes_length]; exact a2)
    rw [b1]
    exact ⟨f', _, rfl, ⟨b2, fun _ => by rw [b3, a1], fun hh => ⟨by rw [b4]; exact (h4 hh).1, rfl⟩, by rw [b4]; exact h9⟩⟩

theorem flush_ok {B : Nat} {f : Wr} (hw : WWF B f) :
    ∃ f' r, wperform .flush f = .ok (f', r) ∧ WOk B [] f f' r ∧ f'.held = [] := by
  obtain ⟨g, b, h1, h2, h3, ⟨t, h4, h5, h6⟩, h7⟩ := flush_spec hw
  refine ⟨g, b, h1, ⟨h2, fun hb => ?_, h7, by rw [h5]; simp⟩, h3⟩
  rw [Wr.all, h3, h5, h6 hb, Wr.all, List.append_nil]

end Verif.Bio
