import Verif.Json.Lemmas

/-!
# Strings, numbers and words
-/

namespace Verif.Json

open Utf (Char32 Badchar utf8 enc CodePoints)

/-! ## Strings -/

theorem simpleEsc_of {e : Char32} {v : Nat} (h : (e, v) ∈ escapes) : simpleEsc e = some (BitVec.ofNat 32 v) ∧ v < 128 ∧ e.toNat < 128 := by
  unfold escapes at h
  simp only [List.mem_cons, Prod.mk.injEq, List.not_mem_nil, or_false] at h
  rcases h with ⟨rfl, rfl⟩ | ⟨rfl, rfl⟩ | ⟨rfl, rfl⟩ | ⟨rfl, rfl⟩ | ⟨rfl, rfl⟩ | ⟨rfl, rfl⟩ | ⟨rfl, rfl⟩ | ⟨rfl, rfl⟩ <;> decide

theorem of_simpleEsc {e c : Char32} (h : simpleEsc e = some c) : (e, c.toNat) ∈ escapes ∧ c.toNat < 128 := by
  unfold simpleEsc at h
  repeat' split at h
  all_goals first
    | (simp only [Option.some.injEq] at h; subst h; subst_vars; decide)
    | simp at h

theorem unescaped_iff (c : Char32) : unescaped c = true ↔ (c.toNat = 0x20 ∨ c.toNat = 0x21 ∨ (0x23 ≤ c.toNat ∧ c.toNat ≤ 0x5b) ∨ (0x5d ≤ c.toNat ∧ c.toNat ≤ 0x10ffff)) := by
  unfold unescaped
  simp only [Bool.or_eq_true, beq_iff_eq, Bool.and_eq_true, decide_eq_true_eq, BitVec.le_def, BitVec.toNat_eq, or_assoc]
  rfl

theorem putc_enc (c : Char32) (h : c.toNat < 0x110000) : PM.lift (Esc.putc c) = PM.ret (utf8 c.toNat) := by
  rw [Esc.putc_utf8 c h, PM.lift_ok]

theorem enc_len_pos (c : Char32) (cs : List Char32) : (enc cs).length < (enc (c :: cs)).length := by
  rw [Utf.enc_cons, List.length_append]
  have := Utf.utf8_pos c.toNat
  omega

theorem strLoop_items {b : List Char32} {s : List Nat} (h : Items false b s) {r : List Char32} : ∀ (f : Nat) (sb : List Byte), CodePoints b → (enc b).length < f →
    strLoop f (enc (b ++ 34#32 :: r)) sb = PM.ret (sb ++ s.flatMap utf8, enc r) := by
  induction h with
  | nil =>
    intro f sb hb hf
    obtain ⟨f, rfl⟩ : ∃ g, f = g + 1 := ⟨f - 1, by omega⟩
    rw [List.nil_append, strLoop, if_pos (by have := enc_len_pos 34#32 r; omega), takec_enc (by decide)]
    simp
  | @plain c t s hc _ ih =>
    intro f sb hb hf
    obtain ⟨f, rfl⟩ : ∃ g, f = g + 1 := ⟨f - 1, by omega⟩
    have hl := enc_len_pos c t
    rw [cp_cons] at hb
    have hu := (unescaped_iff c).2 hc
    have hne : ∀ d : Char32, d.toNat ≠ c.toNat → c ≠ d := fun d hd e => hd (by rw [e])
    have h1 : c ≠ 92#32 := hne _ (by rw [show (92#32 : Char32).toNat = 92 from rfl]; omega)
    have h2 : c ≠ 34#32 := hne _ (by rw [show (34#32 : Char32).toNat = 34 from rfl]; omega)
    have h3 : c ≠ Badchar := hne _ (by rw [show (Badchar).toNat = 4294967295 from rfl]; omega)
    rw [List.cons_append, strLoop, if_pos (by have := enc_len_pos c (t ++ 34#32 :: r); omega), takec_enc hb.1]
    simp only [PM.lift_ok, PM.ret_bind]
    rw [if_neg h1, if_neg h2, if_neg h3, if_pos hu, putc_enc c hb.1]
    simp only [PM.ret_bind]
    rw [ih f _ hb.2 (by omega), List.flatMap_cons, List.append_assoc]
  | @esc e v t s he _ ih =>
    intro f sb hb hf
    obtain ⟨f, rfl⟩ : ∃ g, f = g + 1 := ⟨f - 1, by omega⟩
    have hl := enc_len_pos e t
    have hl2 := enc_len_pos 92#32 (e :: t)
    rw [cp_cons, cp_cons] at hb
    obtain ⟨h1, h2, h3⟩ := simpleEsc_of he
    have hv : (BitVec.ofNat 32 v).toNat = v := by rw [BitVec.toNat_ofNat, Nat.mod_eq_of_lt (by omega)]
    rw [List.cons_append, List.cons_append, strLoop, if_pos (by have := enc_len_pos 92#32 (e :: (t ++ 34#32 :: r)); omega), takec_enc hb.1]
    simp only [PM.lift_ok, PM.ret_bind, if_true]
    unfold escape
    rw [takec_enc hb.2.1]
    simp only [PM.lift_ok, PM.ret_bind]
    rw [h1]
    simp only [PM.ret_bind]
    rw [putc_enc _ (by omega), hv]
    simp only [PM.ret_bind]
    rw [ih f _ hb.2.2 (by omega), List.flatMap_cons, List.append_assoc]
  | uni hu => exact absurd hu (by decide)

theorem jsonstr_str {t : List Char32} {s : List Byte} (h : Str false t s) {r : List Char32} (ht : CodePoints t) : jsonstr (enc (t ++ r)) = PM.ret (s, enc r) := by
  obtain ⟨b, cs, rfl, hi, rfl⟩ := h
  rw [cp_app, cp_cons] at ht
  rw [List.append_assoc, List.cons_append, List.singleton_append]
  unfold jsonstr
  rw [takec_enc (by decide)]
  simp only [PM.lift_ok, PM.ret_bind, if_true]
  rw [strLoop_items hi _ _ ht.1.2, List.nil_append]
  rw [Utf.enc_append, List.length_append]
  omega

/-- No `\u` in the text. -/
def NoU (cs : List Char32) : Prop := ¬ [92#32, 117#32] <:+: cs
/-- No comma followed by a closing brace in the text. -/
def NoC (cs : List Char32) : Prop := ¬ [44#32, 125#32] <:+: cs

theorem NoU.of {a cs : List Char32} (h : NoU cs) (hi : a <:+: cs) : NoU a := fun hh => h (hh.trans hi)
theorem NoC.of {a cs : List Char32} (h : NoC cs) (hi : a <:+: cs) : NoC a := fun hh => h (hh.trans hi)
theorem NoU.right {a b : List Char32} (h : NoU (a ++ b)) : NoU b := h.of (List.suffix_append a b).isInfix
theorem NoC.right {a b : List Char32} (h : NoC (a ++ b)) : NoC b := h.of (List.suffix_append a b).isInfix
theorem NoU.tail {a : Char32} {b : List Char32} (h : NoU (a :: b)) : NoU b := h.of (List.suffix_cons a b).isInfix
theorem NoC.tail {a : Char32} {b : List Char32} (h : NoC (a :: b)) : NoC b := h.of (List.suffix_cons a b).isInfix

theorem strLoop_sound : ∀ (f : Nat) {cs : List Char32} {sb s r' : List Byte}, CodePoints cs → NoU cs → strLoop f (enc cs) sb = PM.ret (s, r') →
    ∃ b r it, cs = b ++ 34#32 :: r ∧ Items false b it ∧ s = sb ++ it.flatMap utf8 ∧ r' = enc r
  | 0, cs, sb, s, r', _, _, h => by rw [strLoop] at h; simp at h
  | f + 1, cs, sb, s, r', hcp, hu, h => by
    rw [strLoop] at h
    split at h
    · cases cs with
      | nil => next hh => exact absurd hh (by decide)
      | cons c cs =>
        rw [cp_cons] at hcp
        rw [takec_enc hcp.1] at h
        simp only [PM.lift_ok, PM.ret_bind] at h
        split at h
        · next hc =>
          subst hc
          obtain ⟨⟨e1, e2⟩, h1, h2⟩ := PM.bind_eq_ret.1 h
          cases cs with
          | nil =>
            exfalso
            have : escape (enc []) = PM.err (.badesc Badchar) := rfl
            rw [this] at h1
            simp at h1
          | cons e cs =>
            rw [cp_cons] at hcp
            unfold escape at h1
            rw [takec_enc hcp.2.1] at h1
            simp only [PM.lift_ok, PM.ret_bind] at h1
            cases he : simpleEsc e with
            | none =>
              exfalso
              rw [he] at h1
              simp only at h1
              split at h1
              · next hc => exact hu ⟨[], cs, by rw [hc]; rfl⟩
              · simp at h1
            | some v =>
              rw [he] at h1
              simp only [PM.ret_inj, Prod.mk.injEq] at h1
              obtain ⟨rfl, rfl⟩ := h1
              obtain ⟨hm, hv⟩ := of_simpleEsc he
              simp only at h2
              rw [putc_enc _ (by omega)] at h2
              simp only [PM.ret_bind] at h2
              obtain ⟨b, r, it, rfl, hi, hs, hr⟩ := strLoop_sound f hcp.2.2 hu.tail.tail h2
              exact ⟨_, r, _, rfl, Items.esc hm hi, by rw [hs, List.flatMap_cons, List.append_assoc], hr⟩
        · split at h
          · next hc =>
            subst hc
            simp only [PM.ret_inj, Prod.mk.injEq] at h
            exact ⟨[], cs, [], rfl, Items.nil, by simp [h.1], h.2.symm⟩
          · split at h
            · simp at h
            · split at h
              · next hun =>
                rw [putc_enc _ hcp.1] at h
                simp only [PM.ret_bind] at h
                obtain ⟨b, r, it, rfl, hi, hs, hr⟩ := strLoop_sound f hcp.2 hu.tail h
                exact ⟨_, r, _, rfl, Items.plain ((unescaped_iff c).1 hun) hi, by rw [hs, List.flatMap_cons, List.append_assoc], hr⟩
              · simp at h
    · simp at h

theorem jsonstr_sound {cs : List Char32} {s r' : List Byte} (hcp : CodePoints cs) (hu : NoU cs) (h : jsonstr (enc cs) = PM.ret (s, r')) :
    ∃ t r, cs = t ++ r ∧ Str false t s ∧ r' = enc r := by
  unfold jsonstr at h
  cases cs with
  | nil =>
    rw [enc_nil, takec_nil] at h
    simp only [PM.lift_ok, PM.ret_bind] at h
    rw [if_neg (by decide)] at h
    simp at h
  | cons c cs =>
    rw [cp_cons] at hcp
    rw [takec_enc hcp.1] at h
    simp only [PM.lift_ok, PM.ret_bind] at h
    split at h
    · next hc =>
      subst hc
      obtain ⟨b, r, it, rfl, hi, hs, hr⟩ := strLoop_sound _ hcp.2 hu.tail h
      exact ⟨34#32 :: b ++ [34#32], r, by simp, ⟨b, it, rfl, hi, by simpa using hs⟩, hr⟩
    · simp at h

/-! ## Numbers -/

/-- What may come after a number. -/
def Follow (r : List Char32) : Prop := ∀ c, r.head? = some c → isDig c = false ∧ c ≠ 46#32 ∧ c ≠ 101#32 ∧ c ≠ 69#32

theorem digits_cp {d : List Char32} (h : Digits d) : CodePoints d := fun c hc => by have := h.2 c hc; omega

theorem tail_enc {c : Char32} {cs : List Char32} (h : c.toNat < 128) : (enc (c :: cs)).tail = enc cs := by rw [enc_ascii h]; rfl

/-- What `peekc` sees. -/
theorem peekc_head {cs : List Char32} (h : CodePoints cs) : peekc (enc cs) = .ok (cs.head?.getD Badchar) := by
  cases cs with
  | nil => rfl
  | cons c cs => rw [peekc_enc (cp_cons.1 h).1]; rfl

theorem head_eq {cs : List Char32} {d : Char32} (hd : d ≠ Badchar) (h : cs.head?.getD Badchar = d) : ∃ r, cs = d :: r := by
  cases cs with
  | nil => exact absurd h.symm hd
  | cons c cs => exact ⟨cs, by simp only [List.head?_cons, Option.getD_some] at h; rw [h]⟩

theorem digits_head {d r : List Char32} (h : Digits d) : ∃ c d', d = c :: d' ∧ (d ++ r).head?.getD Badchar = c ∧ 48 ≤ c.toNat ∧ c.toNat ≤ 57 := by
  cases d with
  | nil => exact absurd rfl h.1
  | cons c d => exact ⟨c, d, rfl, rfl, h.2 c (by simp)⟩

theorem intpart_app {sign int r : List Char32} (hs : sign = [] ∨ sign = [45#32]) (hi : int = [48#32] ∨ Digits int ∧ int.head? ≠ some 48#32) (hr : CodePoints r)
    (hn : ∀ c, r.head? = some c → isDig c = false) : intpart (enc (sign ++ int ++ r)) = .ok (some (enc r)) := by
  have hicp : CodePoints int := by
    rcases hi with rfl | ⟨hi, -⟩
    · intro c hc; simp only [List.mem_singleton] at hc; subst hc; decide
    · exact digits_cp hi
  have hir : CodePoints (int ++ r) := cp_app.2 ⟨hicp, hr⟩
  have hd : (int ++ r).head?.getD Badchar ≠ 45#32 := by
    rcases hi with rfl | ⟨hi, -⟩
    · show (48#32 : Char32) ≠ 45#32
      decide
    · obtain ⟨c, d', -, e, h1, h2⟩ := digits_head (r := r) hi
      rw [e]
      rintro rfl
      exact absurd h1 (by decide)
  have key : (do
      let c ← peekc (enc (int ++ r))
      if c = 48#32 then .ok (some (enc (int ++ r)).tail) else .ok (somedigits (enc (int ++ r))) : Res (Option (List Byte))) = .ok (some (enc r)) := by
    rw [peekc_head hir, Res.bind_ok]
    rcases hi with rfl | ⟨hi, hz⟩
    · rw [if_pos (show ([48#32] ++ r).head?.getD Badchar = 48#32 from rfl), List.singleton_append, tail_enc (by decide)]
    · rw [if_neg, somedigits_app hi hr hn]
      intro e
      obtain ⟨c, d', e1, e2, -⟩ := digits_head (r := r) hi
      rw [e2] at e
      rw [e1, e] at hz
      exact hz rfl
  unfold intpart
  rcases hs with rfl | rfl
  · rw [List.nil_append, peekc_head hir, Res.bind_ok, if_neg hd]
    exact key
  · rw [List.append_assoc, List.singleton_append, peekc_enc (by decide), Res.bind_ok]
    simp only [if_true]
    rw [tail_enc (by decide)]
    exact key

theorem fracpart_app {frac r : List Char32} (hf : frac = [] ∨ ∃ d, Digits d ∧ frac = 46#32 :: d) (hr : CodePoints r) (hn : ∀ c, r.head? = some c → isDig c = false ∧ c ≠ 46#32) :
    fracpart (enc (frac ++ r)) = .ok (some (enc r)) := by
  unfold fracpart
  rcases hf with rfl | ⟨d, hd, rfl⟩
  · rw [List.nil_append, peekc_head hr, Res.bind_ok, if_neg]
    intro e
    obtain ⟨r', rfl⟩ := head_eq (by decide) e
    exact (hn _ rfl).2 rfl
  · rw [List.cons_append, peekc_enc (by decide), Res.bind_ok, if_pos rfl, tail_enc (by decide), somedigits_app hd hr fun c hc => (hn c hc).1]

theorem exppart_app {exp r : List Char32} (hf : exp = [] ∨ ∃ e s d, (e = 101#32 ∨ e = 69#32) ∧ (s = [] ∨ s = [43#32] ∨ s = [45#32]) ∧ Digits d ∧ exp = e :: s ++ d) (hr : CodePoints r)
    (hn : ∀ c, r.head? = some c → isDig c = false ∧ c ≠ 101#32 ∧ c ≠ 69#32) : exppart (enc (exp ++ r)) = .ok (some (enc r)) := by
  unfold exppart
  rcases hf with rfl | ⟨e, s, d, he, hs, hd, rfl⟩
  · rw [List.nil_append, peekc_head hr, Res.bind_ok, if_neg]
    rintro (e | e)
    · obtain ⟨r', rfl⟩ := head_eq (by decide) e
      exact (hn _ rfl).2.1 rfl
    · obtain ⟨r', rfl⟩ := head_eq (by decide) e
      exact (hn _ rfl).2.2 rfl
  · have he1 : e.toNat < 128 := by rcases he with rfl | rfl <;> decide
    have hdr : CodePoints (d ++ r) := cp_app.2 ⟨digits_cp hd, hr⟩
    have hsd := somedigits_app hd hr fun c hc => (hn c hc).1
    rw [List.cons_append, List.cons_append, peekc_enc (by omega), Res.bind_ok, if_pos he, tail_enc he1]
    dsimp only
    rw [List.append_assoc]
    rcases hs with rfl | rfl | rfl
    · rw [List.nil_append, peekc_head hdr, Res.bind_ok, if_neg, hsd]
      obtain ⟨c, d', -, e2, h1, h2⟩ := digits_head (r := r) hd
      rw [e2]
      rintro (rfl | rfl) <;> exact absurd h1 (by decide)
    · rw [List.singleton_append, peekc_enc (by decide), Res.bind_ok, if_pos (Or.inl rfl), tail_enc (by decide), hsd]
    · rw [List.singleton_append, peekc_enc (by decide), Res.bind_ok, if_pos (Or.inr rfl), tail_enc (by decide), hsd]

theorem take_enc {t r : List Char32} : (enc (t ++ r)).take ((enc (t ++ r)).length - (enc r).length) = enc t := by
  rw [Utf.enc_append, List.length_append, Nat.add_sub_cancel, List.take_left]

theorem number_cp {t : List Char32} (h : Number t) : CodePoints t := by
  obtain ⟨sign, int, frac, exp, rfl, h1, h2, h3, h4⟩ := h
  rw [cp_app, cp_app, cp_app]
  refine ⟨⟨⟨?_, ?_⟩, ?_⟩, ?_⟩
  · rcases h1 with rfl | rfl
    · exact cp_nil
    · exact cp_cons.2 ⟨by decide, cp_nil⟩
  · rcases h2 with rfl | ⟨h2, -⟩
    · exact cp_cons.2 ⟨by decide, cp_nil⟩
    · exact digits_cp h2
  · rcases h3 with rfl | ⟨d, hd, rfl⟩
    · exact cp_nil
    · exact cp_cons.2 ⟨by decide, digits_cp hd⟩
  · rcases h4 with rfl | ⟨e, s, d, he, hs, hd, rfl⟩
    · exact cp_nil
    · rw [List.cons_append, cp_cons, cp_app]
      refine ⟨by rcases he with rfl | rfl <;> decide, ?_, digits_cp hd⟩
      rcases hs with rfl | rfl | rfl
      · exact cp_nil
      · exact cp_cons.2 ⟨by decide, cp_nil⟩
      · exact cp_cons.2 ⟨by decide, cp_nil⟩

theorem parsenum_app {F : Type} {fp : List Byte → Option F} {t r : List Char32} {n : F} (ht : Number t) (hf : fp (enc t) = some n) (hr : CodePoints r) (hn : Follow r) :
    parsenum fp (enc (t ++ r)) = .ok (some (n, enc r)) := by
  have hcp := number_cp ht
  obtain ⟨sign, int, frac, exp, rfl, h1, h2, h3, h4⟩ := ht
  rw [cp_app, cp_app, cp_app] at hcp
  have hx : ∀ c, (exp ++ r).head? = some c → isDig c = false ∧ c ≠ 46#32 := by
    intro c hc
    rcases h4 with rfl | ⟨e, s, d, he, hs, hd, rfl⟩
    · exact ⟨(hn c hc).1, (hn c hc).2.1⟩
    · simp only [List.cons_append, List.head?_cons, Option.some.injEq] at hc
      subst hc
      rcases he with rfl | rfl <;> decide
  have hy : ∀ c, (frac ++ (exp ++ r)).head? = some c → isDig c = false := by
    intro c hc
    rcases h3 with rfl | ⟨d, hd, rfl⟩
    · exact (hx c hc).1
    · simp only [List.cons_append, List.head?_cons, Option.some.injEq] at hc
      subst hc
      decide
  have ca : CodePoints (exp ++ r) := cp_app.2 ⟨hcp.2, hr⟩
  have e1 := intpart_app h1 h2 (cp_app.2 ⟨hcp.1.2, ca⟩) hy
  have e2 := fracpart_app h3 ca hx
  have e3 := exppart_app h4 hr fun c hc => ⟨(hn c hc).1, (hn c hc).2.2⟩
  unfold parsenum
  rw [show sign ++ int ++ frac ++ exp ++ r = sign ++ int ++ (frac ++ (exp ++ r)) by simp, e1]
  simp only [Res.bind_ok]
  rw [e2]
  simp only [Res.bind_ok]
  rw [e3]
  simp only [Res.bind_ok]
  rw [show sign ++ int ++ (frac ++ (exp ++ r)) = sign ++ int ++ frac ++ exp ++ r by simp, take_enc, hf]

theorem intpart_sound {cs : List Char32} (h : CodePoints cs) {r : List Byte} (he : intpart (enc cs) = .ok (some r)) :
    ∃ sign int cs', cs = sign ++ int ++ cs' ∧ (sign = [] ∨ sign = [45#32]) ∧ (int = [48#32] ∨ Digits int ∧ int.head? ≠ some 48#32) ∧ r = enc cs' := by
  have key : ∀ cs : List Char32, CodePoints cs → (do
      let c ← peekc (enc cs)
      if c = 48#32 then .ok (some (enc cs).tail) else .ok (somedigits (enc cs)) : Res (Option (List Byte))) = .ok (some r) →
      ∃ int cs', cs = int ++ cs' ∧ (int = [48#32] ∨ Digits int ∧ int.head? ≠ some 48#32) ∧ r = enc cs' := by
    intro cs h he
    rw [peekc_head h, Res.bind_ok] at he
    split at he
    · next hh =>
      obtain ⟨r', rfl⟩ := head_eq (by decide) hh
      simp only [Res.ok.injEq, Option.some.injEq] at he
      rw [tail_enc (by decide)] at he
      exact ⟨[48#32], r', rfl, Or.inl rfl, he.symm⟩
    · next hh =>
      simp only [Res.ok.injEq] at he
      obtain ⟨d, cs', rfl, hd, hr, -⟩ := somedigits_some h he
      refine ⟨d, cs', rfl, Or.inr ⟨hd, fun e => hh ?_⟩, hr⟩
      obtain ⟨c, d', e1, e2, -⟩ := digits_head (r := cs') hd
      rw [e2]
      rw [e1] at e
      simpa using e
  unfold intpart at he
  rw [peekc_head h, Res.bind_ok] at he
  by_cases hm : cs.head?.getD Badchar = 45#32
  · obtain ⟨r', rfl⟩ := head_eq (by decide) hm
    rw [if_pos hm, tail_enc (by decide)] at he
    obtain ⟨int, cs', rfl, h1, h2⟩ := key _ (cp_cons.1 h).2 he
    exact ⟨[45#32], int, cs', rfl, Or.inr rfl, h1, h2⟩
  · rw [if_neg hm] at he
    obtain ⟨int, cs', rfl, h1, h2⟩ := key _ h he
    exact ⟨[], int, cs', rfl, Or.inl rfl, h1, h2⟩

theorem fracpart_sound {cs : List Char32} (h : CodePoints cs) {r : List Byte} (he : fracpart (enc cs) = .ok (some r)) :
    ∃ frac cs', cs = frac ++ cs' ∧ (frac = [] ∨ ∃ d, Digits d ∧ frac = 46#32 :: d) ∧ r = enc cs' := by
  unfold fracpart at he
  rw [peekc_head h, Res.bind_ok] at he
  split at he
  · next hh =>
    obtain ⟨r', rfl⟩ := head_eq (by decide) hh
    simp only [Res.ok.injEq] at he
    rw [tail_enc (by decide)] at he
    obtain ⟨d, cs', rfl, hd, hr, -⟩ := somedigits_some (cp_cons.1 h).2 he
    exact ⟨46#32 :: d, cs', rfl, Or.inr ⟨d, hd, rfl⟩, hr⟩
  · simp only [Res.ok.injEq, Option.some.injEq] at he
    exact ⟨[], cs, rfl, Or.inl rfl, he.symm⟩

theorem exppart_sound {cs : List Char32} (h : CodePoints cs) {r : List Byte} (he : exppart (enc cs) = .ok (some r)) :
    ∃ exp cs', cs = exp ++ cs' ∧ (exp = [] ∨ ∃ e s d, (e = 101#32 ∨ e = 69#32) ∧ (s = [] ∨ s = [43#32] ∨ s = [45#32]) ∧ Digits d ∧ exp = e :: s ++ d) ∧ r = enc cs' := by
  unfold exppart at he
  rw [peekc_head h, Res.bind_ok] at he
  split at he
  · next hh =>
    obtain ⟨e, r', rfl, hee⟩ : ∃ e r', cs = e :: r' ∧ (e = 101#32 ∨ e = 69#32) := by
      rcases hh with hh | hh
      · obtain ⟨r', rfl⟩ := head_eq (by decide) hh; exact ⟨_, r', rfl, Or.inl rfl⟩
      · obtain ⟨r', rfl⟩ := head_eq (by decide) hh; exact ⟨_, r', rfl, Or.inr rfl⟩
    have he1 : e.toNat < 128 := by rcases hee with rfl | rfl <;> decide
    dsimp only at he
    rw [tail_enc he1, peekc_head (cp_cons.1 h).2, Res.bind_ok] at he
    split at he
    · next hs =>
      obtain ⟨s, r2, rfl, hss⟩ : ∃ s r2, r' = s :: r2 ∧ (s = 43#32 ∨ s = 45#32) := by
        rcases hs with hs | hs
        · obtain ⟨r2, rfl⟩ := head_eq (by decide) hs; exact ⟨_, r2, rfl, Or.inl rfl⟩
        · obtain ⟨r2, rfl⟩ := head_eq (by decide) hs; exact ⟨_, r2, rfl, Or.inr rfl⟩
      have hs1 : s.toNat < 128 := by rcases hss with rfl | rfl <;> decide
      simp only [Res.ok.injEq] at he
      rw [tail_enc hs1] at he
      obtain ⟨d, cs', rfl, hd, hr, -⟩ := somedigits_some (cp_cons.1 (cp_cons.1 h).2).2 he
      exact ⟨e :: [s] ++ d, cs', rfl, Or.inr ⟨e, [s], d, hee, by rcases hss with rfl | rfl <;> simp, hd, rfl⟩, hr⟩
    · simp only [Res.ok.injEq] at he
      obtain ⟨d, cs', rfl, hd, hr, -⟩ := somedigits_some (cp_cons.1 h).2 he
      exact ⟨e :: [] ++ d, cs', rfl, Or.inr ⟨e, [], d, hee, by simp, hd, rfl⟩, hr⟩
  · simp only [Res.ok.injEq, Option.some.injEq] at he
    exact ⟨[], cs, rfl, Or.inl rfl, he.symm⟩

theorem parsenum_sound {F : Type} {fp : List Byte → Option F} {cs : List Char32} (h : CodePoints cs) {n : F} {r : List Byte} (he : parsenum fp (enc cs) = .ok (some (n, r))) :
    ∃ t cs', cs = t ++ cs' ∧ Number t ∧ fp (enc t) = some n ∧ r = enc cs' := by
  unfold parsenum at he
  obtain ⟨o1, e1, he⟩ := Res.bind_eq_ok.1 he
  cases o1 with
  | none => simp at he
  | some r1 =>
    simp only at he
    obtain ⟨o2, e2, he⟩ := Res.bind_eq_ok.1 he
    cases o2 with
    | none => simp at he
    | some r2 =>
      simp only at he
      obtain ⟨o3, e3, he⟩ := Res.bind_eq_ok.1 he
      cases o3 with
      | none => simp at he
      | some r3 =>
        simp only at he
        obtain ⟨sign, int, c1, rfl, h1, h2, rfl⟩ := intpart_sound h e1
        have h' := (cp_app.1 h).2
        obtain ⟨frac, c2, rfl, h3, rfl⟩ := fracpart_sound h' e2
        obtain ⟨exp, c3, rfl, h4, rfl⟩ := exppart_sound (cp_app.1 h').2 e3
        rw [show sign ++ int ++ (frac ++ (exp ++ c3)) = sign ++ int ++ frac ++ exp ++ c3 by simp, take_enc] at he
        refine ⟨sign ++ int ++ frac ++ exp, c3, by simp, ⟨sign, int, frac, exp, rfl, h1, h2, h3, h4⟩, ?_⟩
        split at he
        · next m hm =>
          simp only [Res.ok.injEq, Option.some.injEq, Prod.mk.injEq] at he
          exact ⟨by rw [hm, he.1], he.2.symm⟩
        · simp at he

/-! ## Words and numbers -/

theorem word_lt {l : List Char32} (h : (l.all fun c => decide (c.toNat < 128)) = true) : ∀ c ∈ l, c.toNat < 128 :=
  fun c hc => by simpa using List.all_eq_true.1 h c hc

theorem enc_false : enc [102#32, 97#32, 108#32, 115#32, 101#32] = [102, 97, 108, 115, 101] := by decide +kernel
theorem enc_true : enc [116#32, 114#32, 117#32, 101#32] = [116, 114, 117, 101] := by decide +kernel
theorem enc_null : enc [110#32, 117#32, 108#32, 108#32] = [110, 117, 108, 108] := by decide +kernel

theorem scalar_sound {F : Type} {fp : List Byte → Option F} {cs : List Char32} (h : CodePoints cs) {c : Char32} {v : Val F} {r : List Byte} (he : scalar fp (enc cs) c = PM.ret (v, r)) :
    ∃ t cs', cs = t ++ cs' ∧ Elt fp false t v ∧ r = enc cs' := by
  unfold scalar at he
  rw [← enc_false, ← enc_true, ← enc_null] at he
  rcases matchprefix_enc (px := [102#32, 97#32, 108#32, 115#32, 101#32]) (word_lt rfl) h with ⟨cs', e1, e2⟩ | ⟨-, e2⟩
  · rw [e2] at he
    simp only [PM.lift_ok, PM.ret_bind, PM.ret_inj, Prod.mk.injEq] at he
    exact ⟨_, cs', e1, he.1 ▸ Elt.false_, he.2.symm⟩
  rw [e2] at he
  simp only [PM.lift_ok, PM.ret_bind] at he
  rcases matchprefix_enc (px := [116#32, 114#32, 117#32, 101#32]) (word_lt rfl) h with ⟨cs', e1, e2⟩ | ⟨-, e2⟩
  · rw [e2] at he
    simp only [PM.lift_ok, PM.ret_bind, PM.ret_inj, Prod.mk.injEq] at he
    exact ⟨_, cs', e1, he.1 ▸ Elt.true_, he.2.symm⟩
  rw [e2] at he
  simp only [PM.lift_ok, PM.ret_bind] at he
  rcases matchprefix_enc (px := [110#32, 117#32, 108#32, 108#32]) (word_lt rfl) h with ⟨cs', e1, e2⟩ | ⟨-, e2⟩
  · rw [e2] at he
    simp only [PM.lift_ok, PM.ret_bind, PM.ret_inj, Prod.mk.injEq] at he
    exact ⟨_, cs', e1, he.1 ▸ Elt.null, he.2.symm⟩
  rw [e2] at he
  simp only [PM.lift_ok, PM.ret_bind] at he
  split at he
  · obtain ⟨o, e1, he2⟩ := PM.bind_eq_ret.1 he
    clear he
    rename' he2 => he
    rw [PM.lift_eq_ret] at e1
    cases o with
    | none => simp at he
    | some o =>
      simp only [PM.ret_inj, Prod.mk.injEq] at he
      obtain ⟨t, cs', rfl, ht, hf, hr⟩ := parsenum_sound h (show _ = Res.ok (some (o.1, o.2)) from e1)
      exact ⟨t, cs', rfl, he.1 ▸ Elt.num ht hf, by rw [← he.2]; exact hr⟩
  · simp at he

theorem number_head {t : List Char32} (h : Number t) : ∃ c t', t = c :: t' ∧ (isDig c = true ∨ c = 45#32) := by
  obtain ⟨sign, int, frac, exp, rfl, h1, h2, h3, h4⟩ := h
  rcases h1 with rfl | rfl
  · rcases h2 with rfl | ⟨h2, -⟩
    · exact ⟨_, _, rfl, Or.inl (by decide)⟩
    · obtain ⟨c, d', rfl, -, h3, h4⟩ := digits_head (r := []) h2
      exact ⟨c, _, rfl, Or.inl (by unfold isDig; simp; omega)⟩
  · exact ⟨_, _, rfl, Or.inr rfl⟩

theorem scalar_num {F : Type} {fp : List Byte → Option F} {t r : List Char32} {n : F} (ht : Number t) (hf : fp (enc t) = some n) (hr : CodePoints r) (hn : Follow r) :
    ∃ c, (t ++ r).head? = some c ∧ scalar fp (enc (t ++ r)) c = PM.ret (.num n, enc r) := by
  obtain ⟨c, t', e, hc⟩ := number_head ht
  refine ⟨c, by rw [e]; rfl, ?_⟩
  have hcp : CodePoints (t ++ r) := cp_app.2 ⟨number_cp ht, hr⟩
  have hne : ∀ d : Char32, isDig d = false → d ≠ 45#32 → c ≠ d := by
    rintro d h1 h2 rfl
    rcases hc with hc | hc
    · rw [hc] at h1; exact absurd h1 (by decide)
    · exact h2 hc
  have e1 : ∀ p px, (∀ c ∈ p :: px, c.toNat < 128) → isDig p = false → p ≠ 45#32 → matchprefix (enc (t ++ r)) (enc (p :: px)) = .ok none := by
    intro p px h1 h2 h3
    rw [e, List.cons_append] at hcp ⊢
    exact matchprefix_none h1 hcp (hne p h2 h3)
  unfold scalar
  rw [← enc_false, ← enc_true, ← enc_null, e1 _ _ (word_lt rfl) (by decide) (by decide)]
  simp only [PM.lift_ok, PM.ret_bind]
  rw [e1 _ _ (word_lt rfl) (by decide) (by decide)]
  simp only [PM.lift_ok, PM.ret_bind]
  rw [e1 _ _ (word_lt rfl) (by decide) (by decide)]
  simp only [PM.lift_ok, PM.ret_bind]
  rw [if_pos, parsenum_app ht hf hr hn]
  · simp only [PM.lift_ok, PM.ret_bind]
  · rw [isdigit_iff]
    rcases hc with hc | rfl
    · rw [hc]; rfl
    · decide

end Verif.Json
