import Verif.Json.Spec
import Verif.Esc.Props
import Verif.IntFmt.Props

/-!
# The parser's steps on UTF-8 text
-/

namespace Verif.Json

open Utf (Char32 Badchar utf8 enc CodePoints)

/-! ## The monad -/

@[simp] theorem PM.pure_eq {α : Type} (a : α) : (pure a : PM α) = PM.ret a := rfl
@[simp] theorem PM.ret_bind {α β : Type} (a : α) (f : α → PM β) : (PM.ret a >>= f) = f a := rfl
@[simp] theorem PM.err_bind {α β : Type} (e : JErr) (f : α → PM β) : (PM.err e >>= f) = PM.err e := rfl
@[simp] theorem PM.spin_bind {α β : Type} (f : α → PM β) : ((PM.spin : PM α) >>= f) = PM.spin := rfl
@[simp] theorem PM.abort_bind {α β : Type} (f : α → PM β) : ((PM.abort : PM α) >>= f) = PM.abort := rfl
@[simp] theorem PM.lift_ok {α : Type} (a : α) : PM.lift (.ok a) = PM.ret a := rfl

theorem PM.bind_eq_ret {α β : Type} {m : PM α} {f : α → PM β} {b : β} : (m >>= f) = PM.ret b ↔ ∃ a, m = PM.ret a ∧ f a = PM.ret b := by
  show PM.bind m f = _ ↔ _
  constructor
  · intro h
    unfold PM.bind at h
    split at h
    · exact ⟨_, rfl, h⟩
    all_goals exact absurd (show (_ : Res (Except JErr β)) = Res.ok (.ok b) from h) (by simp [PM.abort, PM.spin])
  · rintro ⟨a, rfl, h⟩
    exact h

theorem PM.lift_eq_ret {α : Type} {r : Res α} {a : α} : PM.lift r = PM.ret a ↔ r = .ok a := by
  cases r with
  | ok x =>
    show (Res.ok (.ok x) : Res (Except JErr α)) = Res.ok (.ok a) ↔ _
    simp
  | abort =>
    show (Res.abort : Res (Except JErr α)) = Res.ok (.ok a) ↔ _
    simp
  | ub =>
    show (Res.ub : Res (Except JErr α)) = Res.ok (.ok a) ↔ _
    simp
  | spin =>
    show (Res.spin : Res (Except JErr α)) = Res.ok (.ok a) ↔ _
    simp

@[simp] theorem PM.ret_inj {α : Type} {a b : α} : PM.ret a = PM.ret b ↔ a = b := by
  show (Res.ok (.ok a) : Res (Except JErr α)) = Res.ok (.ok b) ↔ _
  simp
@[simp] theorem PM.err_ne {α : Type} {e : JErr} {a : α} : (PM.err e = PM.ret a) ↔ False := by
  show (Res.ok (.error e) : Res (Except JErr α)) = Res.ok (.ok a) ↔ _
  simp
@[simp] theorem PM.spin_ne {α : Type} {a : α} : (PM.spin = PM.ret a) ↔ False := by
  show (Res.spin : Res (Except JErr α)) = Res.ok (.ok a) ↔ _
  simp
@[simp] theorem PM.abort_ne {α : Type} {a : α} : (PM.abort = PM.ret a) ↔ False := by
  show (Res.abort : Res (Except JErr α)) = Res.ok (.ok a) ↔ _
  simp

/-! ## Code points -/

theorem cp_cons {c : Char32} {cs : List Char32} : CodePoints (c :: cs) ↔ c.toNat < 0x110000 ∧ CodePoints cs := by
  simp [CodePoints]
theorem cp_app {a b : List Char32} : CodePoints (a ++ b) ↔ CodePoints a ∧ CodePoints b := by
  simp only [CodePoints, List.mem_append]
  grind
theorem cp_nil : CodePoints [] := by simp [CodePoints]

theorem enc_nil : enc [] = [] := rfl

theorem utf8_ascii {c : Nat} (h : c < 128) : utf8 c = [BitVec.ofNat 8 c] := by
  unfold utf8
  rw [if_pos (by omega)]

theorem utf8_high {c : Nat} (h : 128 ≤ c) (h2 : c < 0x110000) : ∃ b t, utf8 c = b :: t ∧ 128 ≤ b.toNat := by
  have := Esc.utf8_hi h2 h
  cases hu : utf8 c with
  | nil => exact absurd hu (Utf.utf8_ne_nil c)
  | cons b t => exact ⟨b, t, rfl, this b (by rw [hu]; simp)⟩

theorem enc_ascii {c : Char32} {cs : List Char32} (h : c.toNat < 128) : enc (c :: cs) = c.setWidth 8 :: enc cs := by
  rw [Utf.enc_cons, utf8_ascii h]
  rfl

/-- The first byte of a text: an ASCII character, or above. -/
theorem enc_head (c : Char32) (cs : List Char32) (h : c.toNat < 0x110000) :
    (c.toNat < 128 ∧ enc (c :: cs) = c.setWidth 8 :: enc cs) ∨ (128 ≤ c.toNat ∧ ∃ b t, enc (c :: cs) = b :: t ∧ 128 ≤ b.toNat) := by
  by_cases hc : c.toNat < 128
  · exact Or.inl ⟨hc, enc_ascii hc⟩
  · obtain ⟨b, t, e, hb⟩ := utf8_high (show 128 ≤ c.toNat by omega) h
    exact Or.inr ⟨by omega, b, t ++ enc cs, by rw [Utf.enc_cons, e]; rfl, hb⟩

theorem setWidth8_eq {c d : Char32} (hc : c.toNat < 128) (hd : d.toNat < 128) : c.setWidth 8 = d.setWidth 8 ↔ c = d := by
  constructor
  · intro h
    have := congrArg BitVec.toNat h
    simp only [BitVec.toNat_setWidth] at this
    apply BitVec.eq_of_toNat_eq
    omega
  · rintro rfl; rfl

theorem peekc_nil : peekc [] = .ok Badchar := rfl

theorem decode_enc {c : Char32} {cs : List Char32} (h : c.toNat < 0x110000) : Utf.decode (enc (c :: cs)) = .ok c := by
  unfold Utf.decode
  rw [Utf.enc_cons, Utf.charstep_utf8 _ h]
  simp

theorem peekc_enc {c : Char32} {cs : List Char32} (h : c.toNat < 0x110000) : peekc (enc (c :: cs)) = .ok c := decode_enc h

theorem takec_nil : takec [] = .ok (Badchar, []) := rfl

theorem takec_enc {c : Char32} {cs : List Char32} (h : c.toNat < 0x110000) : takec (enc (c :: cs)) = .ok (c, enc cs) := by
  unfold takec
  have hl : (utf8 c.toNat).length = Utf.charlen c := by rw [Utf.utf8_length _ h, Utf.ofNat_toNat]
  have hp := Utf.charlen_pos c
  have hlen : (enc (c :: cs)).length = Utf.charlen c + (enc cs).length := by rw [Utf.enc_cons, List.length_append, hl]
  rw [if_neg (by omega), decode_enc h, Res.bind_ok, slice_suffix (by omega), Res.bind_ok, Utf.enc_cons, ← hl, List.drop_left]

theorem mem_takeWhile {p : Char32 → Bool} {cs : List Char32} {c : Char32} (h : c ∈ cs.takeWhile p) : p c = true :=
  List.all_eq_true.1 (List.all_takeWhile (p := p) (l := cs)) c h

/-! ## White space -/

/-- White space, as a test. -/
def isWs (c : Char32) : Bool := c == 32#32 || c == 9#32 || c == 13#32 || c == 10#32

theorem ws_iff {l : List Char32} : Ws l ↔ ∀ c ∈ l, isWs c = true := by
  unfold Ws isWs
  simp [or_assoc]

theorem isWs_lt {c : Char32} (h : isWs c = true) : c.toNat < 128 := by
  unfold isWs at h
  simp only [Bool.or_eq_true, beq_iff_eq] at h
  rcases h with ((rfl | rfl) | rfl) | rfl <;> decide

theorem takespace_enc {cs : List Char32} (h : CodePoints cs) : takespace (enc cs) = enc (cs.dropWhile isWs) := by
  induction cs with
  | nil => rfl
  | cons c cs ih =>
    rw [cp_cons] at h
    rw [List.dropWhile_cons]
    rcases enc_head c cs h.1 with ⟨h1, e⟩ | ⟨h1, b, t, e, hb⟩
    · have hw : (c.setWidth 8 = 32#8 ∨ c.setWidth 8 = 9#8 ∨ c.setWidth 8 = 13#8 ∨ c.setWidth 8 = 10#8) ↔ isWs c = true := by
        unfold isWs
        have k : ∀ d : Char32, d.toNat < 128 → (c.setWidth 8 = d.setWidth 8 ↔ c = d) := fun d hd => setWidth8_eq h1 hd
        have k1 := k 32#32 (by decide)
        have k2 := k 9#32 (by decide)
        have k3 := k 13#32 (by decide)
        have k4 := k 10#32 (by decide)
        simp only [Bool.or_eq_true, beq_iff_eq, or_assoc]
        rw [← k1, ← k2, ← k3, ← k4]
        exact Iff.rfl
      rw [e, takespace]
      by_cases hc : isWs c = true
      · rw [if_pos (hw.2 hc), if_pos hc]; exact ih h.2
      · rw [if_neg (fun hh => hc (hw.1 hh)), if_neg hc, e]
    · have hc : ¬ isWs c = true := fun hh => by have := isWs_lt hh; omega
      rw [if_neg hc, e, takespace, if_neg]
      rintro (rfl | rfl | rfl | rfl) <;> exact absurd hb (by decide)

theorem dropWhile_ws {w cs : List Char32} (hw : Ws w) : (w ++ cs).dropWhile isWs = cs.dropWhile isWs := by
  induction w with
  | nil => rfl
  | cons c w ih =>
    rw [ws_iff] at hw
    rw [List.cons_append, List.dropWhile_cons, if_pos (hw c (by simp))]
    exact ih (ws_iff.2 fun d hd => hw d (List.mem_cons_of_mem _ hd))

/-- Every text is white space and then something else. -/
theorem ws_split (cs : List Char32) : ∃ w, Ws w ∧ cs = w ++ cs.dropWhile isWs :=
  ⟨cs.takeWhile isWs, ws_iff.2 fun _ hc => (mem_takeWhile hc), (List.takeWhile_append_dropWhile).symm⟩

theorem cp_dropWhile {cs : List Char32} (h : CodePoints cs) (p : Char32 → Bool) : CodePoints (cs.dropWhile p) :=
  fun c hc => h c ((List.dropWhile_sublist p).subset hc)

/-! ## Digits -/

/-- A digit, as a test. -/
def isDig (c : Char32) : Bool := decide (48 ≤ c.toNat ∧ c.toNat ≤ 57)

theorem isdigit_iff (c : Char32) : isdigit c = isDig c := by
  unfold isdigit isDig
  rw [Bool.eq_iff_iff]
  simp [BitVec.le_def]

theorem digit_byte {b : Byte} : digit b = decide (48 ≤ b.toNat ∧ b.toNat ≤ 57) := by
  unfold digit
  rw [Bool.eq_iff_iff]
  simp [BitVec.le_def]

theorem skipdigits_enc {cs : List Char32} (h : CodePoints cs) : skipdigits (enc cs) = ((cs.head?.map isDig).getD false, enc (cs.dropWhile isDig)) := by
  induction cs with
  | nil => rfl
  | cons c cs ih =>
    rw [cp_cons] at h
    rw [List.dropWhile_cons]
    rcases enc_head c cs h.1 with ⟨h1, e⟩ | ⟨h1, b, t, e, hb⟩
    · have hw : digit (c.setWidth 8) = isDig c := by
        rw [digit_byte]
        unfold isDig
        rw [BitVec.toNat_setWidth, Nat.mod_eq_of_lt (by omega)]
      rw [e, skipdigits, hw]
      by_cases hc : isDig c = true
      · rw [if_pos hc, if_pos hc, ih h.2]; simp [hc]
      · rw [if_neg hc, if_neg hc, e]; simp [hc]
    · have hc : ¬ isDig c = true := by unfold isDig; simp; omega
      rw [if_neg hc, e, skipdigits, if_neg]
      · simp [hc]
      · rw [digit_byte]; simp; omega

theorem somedigits_enc {cs : List Char32} (h : CodePoints cs) : somedigits (enc cs) = if (cs.head?.map isDig).getD false then some (enc (cs.dropWhile isDig)) else none := by
  unfold somedigits
  rw [skipdigits_enc h]

/-- Digits in front. -/
theorem somedigits_app {d cs : List Char32} (hd : Digits d) (h : CodePoints cs) (hn : ∀ c, cs.head? = some c → isDig c = false) : somedigits (enc (d ++ cs)) = some (enc cs) := by
  have hdd : ∀ c ∈ d, isDig c = true := fun c hc => by unfold isDig; simpa using hd.2 c hc
  have hcp : CodePoints (d ++ cs) := cp_app.2 ⟨fun c hc => by have := hd.2 c hc; omega, h⟩
  rw [somedigits_enc hcp]
  cases d with
  | nil => exact absurd rfl hd.1
  | cons x d =>
    rw [if_pos (by simpa using hdd x (by simp))]
    congr 2
    rw [List.dropWhile_append_of_pos hdd]
    cases cs with
    | nil => rfl
    | cons y cs => rw [List.dropWhile_cons, if_neg (by rw [hn y rfl]; decide)]

theorem somedigits_some {cs : List Char32} (h : CodePoints cs) {r : List Byte} (he : somedigits (enc cs) = some r) :
    ∃ d cs', cs = d ++ cs' ∧ Digits d ∧ r = enc cs' ∧ ∀ c, cs'.head? = some c → isDig c = false := by
  rw [somedigits_enc h] at he
  split at he
  · next hh =>
    simp only [Option.some.injEq] at he
    refine ⟨cs.takeWhile isDig, cs.dropWhile isDig, (List.takeWhile_append_dropWhile).symm, ⟨?_, ?_⟩, he.symm, ?_⟩
    · cases cs with
      | nil => simp at hh
      | cons c cs =>
        simp only [List.head?_cons, Option.map_some, Option.getD_some] at hh
        rw [List.takeWhile_cons, if_pos hh]
        simp
    · intro c hc
      have := mem_takeWhile hc
      unfold isDig at this
      simpa using this
    · intro c hc
      have := List.head?_dropWhile_not isDig cs
      rw [hc] at this
      simpa using this
  · simp at he

/-! ## Prefixes -/

theorem prefix_enc {px cs : List Char32} (hp : ∀ c ∈ px, c.toNat < 128) (h : CodePoints cs) : enc px <+: enc cs ↔ px <+: cs := by
  induction px generalizing cs with
  | nil => simp [enc_nil]
  | cons p px ih =>
    have hp1 := hp p (by simp)
    rw [enc_ascii hp1]
    cases cs with
    | nil => simp [enc_nil]
    | cons c cs =>
      rw [cp_cons] at h
      rw [List.cons_prefix_cons]
      rcases enc_head c cs h.1 with ⟨h1, e⟩ | ⟨h1, b, t, e, hb⟩
      · rw [e, List.cons_prefix_cons, setWidth8_eq hp1 h1, ih (fun d hd => hp d (List.mem_cons_of_mem _ hd)) h.2]
      · rw [e, List.cons_prefix_cons]
        constructor
        · rintro ⟨h2, -⟩
          have := congrArg BitVec.toNat h2
          rw [BitVec.toNat_setWidth] at this
          omega
        · rintro ⟨rfl, -⟩
          omega

theorem enc_drop {px cs : List Char32} : (enc (px ++ cs)).drop (enc px).length = enc cs := by
  rw [Utf.enc_append, List.drop_left]

theorem matchprefix_enc {px cs : List Char32} (hp : ∀ c ∈ px, c.toNat < 128) (h : CodePoints cs) :
    (∃ cs', cs = px ++ cs' ∧ matchprefix (enc cs) (enc px) = .ok (some (enc cs'))) ∨ (¬ px <+: cs ∧ matchprefix (enc cs) (enc px) = .ok none) := by
  unfold matchprefix
  rw [IntFmt.hasprefix_eq]
  simp only [Res.bind_ok, decide_eq_true_eq]
  by_cases hc : px <+: cs
  · obtain ⟨cs', rfl⟩ := hc
    exact Or.inl ⟨cs', rfl, by rw [if_pos ((prefix_enc hp h).2 ⟨cs', rfl⟩), enc_drop]⟩
  · exact Or.inr ⟨hc, by rw [if_neg (fun hh => hc ((prefix_enc hp h).1 hh))]⟩

theorem matchprefix_some {px cs : List Char32} (hp : ∀ c ∈ px, c.toNat < 128) (h : CodePoints (px ++ cs)) : matchprefix (enc (px ++ cs)) (enc px) = .ok (some (enc cs)) := by
  rcases matchprefix_enc hp h with ⟨cs', e1, e2⟩ | ⟨hn, -⟩
  · rw [e2, List.append_cancel_left e1]
  · exact absurd ⟨cs, rfl⟩ hn

theorem matchprefix_none {px : List Char32} {p c : Char32} {cs : List Char32} (hp : ∀ c ∈ p :: px, c.toNat < 128) (h : CodePoints (c :: cs)) (hn : c ≠ p) :
    matchprefix (enc (c :: cs)) (enc (p :: px)) = .ok none := by
  rcases matchprefix_enc hp h with ⟨cs', e1, e2⟩ | ⟨-, e⟩
  · exact absurd (List.cons.inj e1).1 hn
  · exact e

end Verif.Json
