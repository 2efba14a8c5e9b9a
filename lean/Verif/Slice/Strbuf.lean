import Verif.Slice.Props

/-!
# C47: string buffers accumulate
-/

namespace Verif.Slice

/-- An operation on a string buffer (specification). -/
inductive Op where
  | puts (v : List Byte)
  | putb (v : Byte)
  | putc (v : Utf.Char32)
  | trim (n : Int)

/-- Run one operation of the model. -/
def step (fresh : Nat → List Byte) (fuel : Nat) (sb : Sb) : Op → Res (Sb × Bool)
  | .puts v => sbputs fresh fuel sb v
  | .putb v => sbputb fresh fuel sb v
  | .putc v => sbputc fresh fuel sb v
  | .trim n => .ok (sbtrim sb n, true)

/-- Run operations, collecting the results. -/
def run (fresh : Nat → List Byte) (fuel : Nat) : Sb → List Op → Res (Sb × List Bool)
  | sb, [] => .ok (sb, [])
  | sb, op :: ops => do
    let (sb, r) ← step fresh fuel sb op
    let (sb, rs) ← run fresh fuel sb ops
    pure (sb, r :: rs)

/-- What an operation does to the accumulated text, with an optional capacity
(specification). -/
def specStep (cap : Option Nat) (s : List Byte) : Op → List Byte × Bool
  | .puts v =>
    match cap with
    | none => (s ++ v, true)
    | some n => (s ++ v.take (n - s.length), decide (s.length + v.length ≤ n))
  | .putb v => if cap.all (fun n => decide (s.length + 1 ≤ n)) then (s ++ [v], true) else (s, false)
  | .putc v =>
    if cap.all (fun n => decide (s.length + (Utf.utf8 v.toNat).length ≤ n)) then
      (s ++ Utf.utf8 v.toNat, true)
    else (s, false)
  | .trim n => if 0 ≤ n then (s.take n.toNat, true) else (s.take (s.length - (-n).toNat), true)

/-- Accumulated text after several operations (specification). -/
def specRun (cap : Option Nat) : List Byte → List Op → List Byte × List Bool
  | s, [] => (s, [])
  | s, op :: ops => ((specRun cap (specStep cap s op).1 ops).1, (specStep cap s op).2 :: (specRun cap (specStep cap s op).1 ops).2)

/-- Characters put are code points. -/
def Op.Char : Op → Prop
  | .putc v => v.toNat < 0x110000
  | _ => True

/-- No more is trimmed from the end than there is. -/
def TrimOk (cap : Option Nat) : List Byte → List Op → Prop
  | _, [] => True
  | s, op :: ops => (∀ n, op = .trim n → -(s.length : Int) ≤ n) ∧ TrimOk cap (specStep cap s op).1 ops

/-- The buffer holds the text `s`. -/
structure Holds (cap : Option Nat) (sb : Sb) (s : List Byte) : Prop where
  len : sb.len = s.length
  room : s.length ≤ sb.buf.data.length
  pre : sb.buf.data.take s.length = s
  fixed : sb.fixed = cap.isSome
  cap_eq : ∀ n, cap = some n → sb.buf.data.length = n
  pos : sb.fixed = false → 1 ≤ sb.buf.data.length

variable {fresh : Nat → List Byte}

theorem ensureLoop_spec (hf : Fresh fresh) (need : Nat) (fuel : Nat) : ∀ (buf : Sl Byte) (s : List Byte),
    1 ≤ buf.data.length → need - buf.data.length < fuel → s.length ≤ buf.data.length →
    buf.data.take s.length = s →
    ∃ b, ensureLoop fresh need fuel buf = .ok b ∧ need ≤ b.data.length ∧ 1 ≤ b.data.length ∧
      s.length ≤ b.data.length ∧ b.data.take s.length = s := by
  induction fuel with
  | zero => intro buf s _ h; omega
  | succ n ih =>
    intro buf s h1 h2 h3 h4
    unfold ensureLoop
    split
    · next h =>
      obtain ⟨b, g1, g2, g3⟩ := slgrow_spec fresh hf buf (2 * buf.data.length)
      rw [g1, Res.bind_ok]
      refine ih b s (by omega) (by omega) (by omega) ?_
      have : (b.data.take buf.data.length).take s.length = (buf.data.take (2 * buf.data.length)).take s.length := by
        rw [g3]
      rw [List.take_take, List.take_take, Nat.min_eq_left h3, Nat.min_eq_left (by omega), h4] at this
      exact this
    · next h => exact ⟨buf, rfl, by omega, h1, h3, h4⟩

/-- `ensure` either makes room, or (fixed buffers) reports that there is none. -/
theorem ensure_spec (hf : Fresh fresh) (cap : Option Nat) (sb : Sb) (s : List Byte) (hs : Holds cap sb s)
    (len : Nat) (fuel : Nat) (hfuel : s.length + len < fuel) :
    ∃ sb' ok, ensure fresh fuel sb len = .ok (sb', ok) ∧ Holds cap sb' s ∧
      ok = cap.all (fun n => decide (s.length + len ≤ n)) ∧ (ok = true → s.length + len ≤ sb'.buf.data.length) := by
  unfold ensure
  cases cap with
  | some n =>
    have hfx : sb.fixed = true := by simpa using hs.fixed
    have hc := hs.cap_eq n rfl
    by_cases h : s.length + len ≤ n
    · rw [if_neg (by rw [hs.len, hc]; push Not; intro _; omega)]
      have : ensureLoop fresh (sb.len + len) fuel sb.buf = .ok sb.buf := by
        cases fuel with
        | zero => omega
        | succ k =>
          unfold ensureLoop
          rw [if_neg (by rw [hs.len]; omega)]
      rw [this, Res.bind_ok]
      exact ⟨sb, true, rfl, hs, by simp [h], fun _ => by omega⟩
    · rw [if_pos ⟨hfx, by rw [hs.len, hc]; omega⟩]
      exact ⟨sb, false, rfl, hs, by simp; omega, by simp⟩
  | none =>
    have hfx : sb.fixed = false := by simpa using hs.fixed
    rw [if_neg (by simp [hfx])]
    obtain ⟨b, g1, g2, g3, g4, g5⟩ := ensureLoop_spec hf (s.length + len) fuel sb.buf s (hs.pos hfx) (by omega)
      hs.room hs.pre
    rw [hs.len, ← Int.natCast_add, g1, Res.bind_ok]
    refine ⟨_, true, rfl, ?_, by simp, fun _ => g2⟩
    exact ⟨rfl, g4, g5, by simpa using hfx, by simp, fun _ => g3⟩

theorem sliceI_ok {l : List Byte} {lo hi : Nat} (h1 : lo ≤ hi) (h2 : hi ≤ l.length) :
    sliceI l lo hi = .ok ((l.take hi).drop lo) := by
  unfold sliceI
  rw [if_neg (by omega), if_neg (by omega)]
  simp

theorem puts_spec (hf : Fresh fresh) (cap : Option Nat) (sb : Sb) (s : List Byte) (hs : Holds cap sb s)
    (v : List Byte) (fuel : Nat) (hfuel : s.length + v.length < fuel) :
    ∃ sb', sbputs fresh fuel sb v = .ok (sb', (specStep cap s (.puts v)).2) ∧
      Holds cap sb' (specStep cap s (.puts v)).1 := by
  unfold sbputs
  obtain ⟨sb1, ok, h1, h2, h3, h4⟩ := ensure_spec hf cap sb s hs v.length fuel hfuel
  rw [h1, Res.bind_ok]
  simp only
  -- the number of bytes copied
  obtain ⟨k, hk, hkv, hkr⟩ : ∃ k : Nat, (if (sb1.buf.data.length : Int) - sb1.len < v.length then
      (sb1.buf.data.length : Int) - sb1.len else v.length) = k ∧ k ≤ v.length ∧
      s.length + k ≤ sb1.buf.data.length := by
    have := h2.room
    rw [h2.len]
    by_cases hc : (sb1.buf.data.length : Int) - s.length < v.length
    · exact ⟨sb1.buf.data.length - s.length, by rw [if_pos hc]; omega, by omega, by omega⟩
    · exact ⟨v.length, by rw [if_neg hc], by omega, by omega⟩
  rw [hk, h2.len, ← Int.natCast_add, sliceI_ok (by omega) hkr, Res.bind_ok]
  have := sliceI_ok (l := v) (Nat.zero_le k) hkv
  simp only [Int.ofNat_zero, List.drop_zero] at this
  rw [this, Res.bind_ok, if_neg (by simp; omega)]
  have hspec : (specStep cap s (.puts v)).1 = s ++ v.take k ∧ (specStep cap s (.puts v)).2 = ok := by
    cases cap with
    | none =>
      have hok : ok = true := by simpa using h3
      have := h4 hok
      have hkk : k = v.length := by
        rw [h2.len, if_neg (by omega)] at hk; omega
      subst hkk
      simp [specStep, hok]
    | some n =>
      have hc := h2.cap_eq n rfl
      refine ⟨?_, by rw [h3]; rfl⟩
      simp only [specStep]
      congr 1
      rw [h2.len, hc] at hk
      split at hk
      · congr 1; omega
      · rw [List.take_of_length_le (by omega), List.take_of_length_le (by omega)]
  refine ⟨_, by rw [hspec.2]; rfl, ?_⟩
  rw [hspec.1]
  have hroom := h2.room
  refine ⟨by simp [Nat.min_eq_left hkv], ?_, ?_, h2.fixed, ?_, ?_⟩
  · simp; omega
  · simp only
    rw [show (s.length : Int).toNat = s.length by omega, h2.pre]
    rw [List.take_left' (by simp)]
  · intro n hn
    have := h2.cap_eq n hn
    simp; omega
  · intro hx
    have := h2.pos hx
    simp; omega

theorem putb_spec (hf : Fresh fresh) (cap : Option Nat) (sb : Sb) (s : List Byte) (hs : Holds cap sb s)
    (v : Byte) (fuel : Nat) (hfuel : s.length + 1 < fuel) :
    ∃ sb', sbputb fresh fuel sb v = .ok (sb', (specStep cap s (.putb v)).2) ∧
      Holds cap sb' (specStep cap s (.putb v)).1 := by
  unfold sbputb
  obtain ⟨sb1, ok, h1, h2, h3, h4⟩ := ensure_spec hf cap sb s hs 1 fuel hfuel
  rw [show ((1 : Nat) : Int) = 1 from rfl] at h1
  rw [h1, Res.bind_ok]
  simp only
  cases ok with
  | false =>
    refine ⟨sb1, ?_, ?_⟩
    · simp [specStep, ← h3]
    · simpa [specStep, ← h3] using h2
  | true =>
    have hl := h4 rfl
    rw [if_neg (by simp), if_neg (by rw [h2.len]; omega), h2.len, show (s.length : Int).toNat = s.length by omega,
      wrChk_ok _ (by omega), Res.bind_ok]
    have e : specStep cap s (.putb v) = (s ++ [v], true) := by simp [specStep, ← h3]
    rw [e]
    refine ⟨_, rfl, by simp, by simp; omega, ?_, h2.fixed, ?_, ?_⟩
    · simp only [List.length_append, List.length_singleton]
      rw [List.take_add_one, List.take_set_of_le (Nat.le_refl _), h2.pre, List.getElem?_set_self (by omega)]
      rfl
    · intro n hn; simpa using h2.cap_eq n hn
    · intro hx; simpa using h2.pos hx

theorem putc_spec (hf : Fresh fresh) (cap : Option Nat) (sb : Sb) (s : List Byte) (hs : Holds cap sb s)
    (v : Utf.Char32) (hv : v.toNat < 0x110000) (fuel : Nat) (hfuel : s.length + (Utf.utf8 v.toNat).length < fuel) :
    ∃ sb', sbputc fresh fuel sb v = .ok (sb', (specStep cap s (.putc v)).2) ∧
      Holds cap sb' (specStep cap s (.putc v)).1 := by
  unfold sbputc
  have henc := Utf.encode_utf8 v.toNat hv
  rw [Utf.ofNat_toNat] at henc
  have hcl := (henc []).1
  rw [hcl]
  obtain ⟨sb1, ok, h1, h2, h3, h4⟩ := ensure_spec hf cap sb s hs (Utf.utf8 v.toNat).length fuel hfuel
  rw [h1, Res.bind_ok]
  simp only
  cases ok with
  | false =>
    refine ⟨sb1, ?_, ?_⟩
    · simp [specStep, ← h3]
    · simpa [specStep, ← h3] using h2
  | true =>
    have hl := h4 rfl
    rw [if_neg (by simp), h2.len, sliceI_ok h2.room (Nat.le_refl _), Res.bind_ok, (henc _).2,
      if_pos (by simp; omega), Res.bind_ok]
    have e : specStep cap s (.putc v) = (s ++ Utf.utf8 v.toNat, true) := by simp [specStep, ← h3]
    rw [e]
    refine ⟨_, rfl, by simp, by simp; omega, ?_, h2.fixed, ?_, ?_⟩
    · simp only
      rw [show (s.length : Int).toNat = s.length by omega, h2.pre, List.take_length, ← List.append_assoc,
        List.take_left' rfl]
    · intro n hn
      have := h2.cap_eq n hn
      simp; omega
    · intro hx
      have := h2.pos hx
      simp; omega

theorem trim_spec (cap : Option Nat) (sb : Sb) (s : List Byte) (hs : Holds cap sb s) (n : Int)
    (hn : -(s.length : Int) ≤ n) : Holds cap (sbtrim sb n) (specStep cap s (.trim n)).1 := by
  have key : ∀ k : Nat, k ≤ s.length → Holds cap { sb with len := (k : Int) } (s.take k) := by
    intro k hk
    have hr := hs.room
    refine ⟨by simp [Nat.min_eq_left hk], by simp; omega, ?_, hs.fixed, hs.cap_eq, hs.pos⟩
    rw [List.length_take, Nat.min_eq_left hk]
    have : (sb.buf.data.take s.length).take k = s.take k := by rw [hs.pre]
    rwa [List.take_take, Nat.min_eq_left hk] at this
  unfold sbtrim specStep
  simp only
  rw [hs.len]
  by_cases h0 : 0 ≤ n
  · rw [if_pos h0]
    by_cases hlt : (s.length : Int) < n
    · rw [if_pos hlt, if_neg (by omega)]
      have := key s.length (Nat.le_refl _)
      rw [List.take_length] at this
      rw [List.take_of_length_le (by omega)]
      exact this
    · rw [if_neg hlt, if_neg (by omega)]
      have := key n.toNat (by omega)
      rwa [Int.toNat_of_nonneg h0] at this
  · have e : (if (s.length : Int) < n then (s.length : Int) else n) = n := if_neg (by omega)
    have e2 : (if n < 0 then -n else n) = -n := if_pos (by omega)
    rw [if_neg h0, e, e2, if_pos (by omega)]
    have := key (s.length - (-n).toNat) (by omega)
    rw [show ((s.length - (-n).toNat : Nat) : Int) = s.length - -n by omega] at this
    exact this

/-- The accumulated text is what `sbpeek` and `sbfin` return. -/
theorem peek_spec {cap : Option Nat} {sb : Sb} {s : List Byte} (hs : Holds cap sb s) : sbpeek sb = .ok s := by
  unfold sbpeek
  have := sliceI_ok (l := sb.buf.data) (Nat.zero_le s.length) hs.room
  rw [hs.len]
  rw [show ((0 : Nat) : Int) = 0 from rfl] at this
  rw [this, List.drop_zero, hs.pre]

theorem run_spec (hf : Fresh fresh) (cap : Option Nat) (ops : List Op) : ∀ (s : List Byte),
    (∀ op ∈ ops, op.Char) → TrimOk cap s ops →
    ∃ N, ∀ fuel, N ≤ fuel → ∀ sb, Holds cap sb s →
      ∃ sb', run fresh fuel sb ops = .ok (sb', (specRun cap s ops).2) ∧ Holds cap sb' (specRun cap s ops).1 := by
  induction ops with
  | nil => intro s _ _; exact ⟨0, fun fuel _ sb h => ⟨sb, rfl, h⟩⟩
  | cons op ops ih =>
    intro s hc ht
    obtain ⟨N, hN⟩ := ih (specStep cap s op).1 (fun o ho => hc o (by simp [ho])) ht.2
    have one : ∃ M, ∀ fuel, M ≤ fuel → ∀ sb, Holds cap sb s → ∃ sb', step fresh fuel sb op =
        .ok (sb', (specStep cap s op).2) ∧ Holds cap sb' (specStep cap s op).1 := by
      cases op with
      | puts v => exact ⟨s.length + v.length + 1, fun fuel hfu sb h => puts_spec hf cap sb s h v fuel (by omega)⟩
      | putb v => exact ⟨s.length + 2, fun fuel hfu sb h => putb_spec hf cap sb s h v fuel (by omega)⟩
      | putc v => exact ⟨s.length + (Utf.utf8 v.toNat).length + 1, fun fuel hfu sb h =>
          putc_spec hf cap sb s h v (hc (.putc v) (by simp)) fuel (by omega)⟩
      | trim n =>
        refine ⟨0, fun fuel _ sb h => ⟨sbtrim sb n, ?_, trim_spec cap sb s h n (ht.1 n rfl)⟩⟩
        unfold step specStep
        simp only
        split <;> rfl
    obtain ⟨M, hM⟩ := one
    refine ⟨max M N, fun fuel hfu sb h => ?_⟩
    obtain ⟨sb1, g1, g2⟩ := hM fuel (by omega) sb h
    obtain ⟨sb2, k1, k2⟩ := hN fuel (by omega) sb1 g2
    refine ⟨sb2, ?_, k2⟩
    unfold run
    rw [g1, Res.bind_ok]
    simp only
    rw [k1, Res.bind_ok]
    rfl

/-- The claim of C47 for growing buffers: every history of operations on a new buffer runs
and `sbpeek` gives the accumulated text. -/
def GrowClaim : Prop := ∀ (fresh : Nat → List Byte), Fresh fresh → ∀ ops : List Op, (∀ op ∈ ops, op.Char) →
  ∃ fuel sb, run fresh fuel (mksb fresh) ops = .ok (sb, (specRun none [] ops).2) ∧
    sbpeek sb = .ok (specRun none [] ops).1

/-- **C47, growing buffers, part.**  Missing: histories in which `sbtrim` is told to cut more
from the end than there is. -/
theorem strbuf_grow_partial (hf : Fresh fresh) (ops : List Op) (hc : ∀ op ∈ ops, op.Char)
    (ht : TrimOk none [] ops) :
    ∃ fuel sb, run fresh fuel (mksb fresh) ops = .ok (sb, (specRun none [] ops).2) ∧
      sbpeek sb = .ok (specRun none [] ops).1 := by
  obtain ⟨N, h⟩ := run_spec hf none ops [] hc ht
  have h1 := hf 1
  obtain ⟨sb, h2, h3⟩ := h N (Nat.le_refl _) (mksb fresh)
    ⟨rfl, by simp, by simp, rfl, by simp, fun _ => by simp [mksb]; omega⟩
  exact ⟨N, sb, h2, peek_spec h3⟩

/-- **C47, fixed buffers, part.**  Same restriction. -/
theorem strbuf_fixed_partial (hf : Fresh fresh) (buf : List Byte) (ops : List Op)
    (hc : ∀ op ∈ ops, op.Char) (ht : TrimOk (some buf.length) [] ops) :
    ∃ fuel sb, run fresh fuel (mkbufsb buf) ops = .ok (sb, (specRun (some buf.length) [] ops).2) ∧
      sbpeek sb = .ok (specRun (some buf.length) [] ops).1 ∧ sb.buf.data.length = buf.length := by
  obtain ⟨N, h⟩ := run_spec hf (some buf.length) ops [] hc ht
  obtain ⟨sb, h2, h3⟩ := h N (Nat.le_refl _) (mkbufsb buf)
    ⟨rfl, by simp, by simp, rfl, fun n hn => by simpa [mkbufsb] using hn, fun hx => by simp [mkbufsb] at hx⟩
  exact ⟨N, sb, h2, peek_spec h3, h3.cap_eq _ rfl⟩

/-- Trimming three bytes from the end of one leaves a negative length; `sbpeek` then aborts
(and a following `sbputs` writes before the buffer). -/
theorem sbtrim_violated : ¬ GrowClaim := by
  intro h
  have hf : Fresh fun n => List.replicate (n + 1) (0 : Byte) := fun n => by simp
  obtain ⟨fuel, sb, h1, h2⟩ := h _ hf [.putb 97, .trim (-3)] (by intro op ho; simp at ho; rcases ho with rfl | rfl <;> trivial)
  cases fuel with
  | zero =>
    have : run (fun n => List.replicate (n + 1) (0 : Byte)) 0 (mksb fun n => List.replicate (n + 1) (0 : Byte))
      [.putb 97, .trim (-3)] = .spin := by decide +kernel
    rw [this] at h1; cases h1
  | succ fuel =>
    have e : ensureLoop (fun n => List.replicate (n + 1) (0 : Byte)) 1 (fuel + 1) ⟨[0], [0]⟩ = .ok ⟨[0], [0]⟩ := by
      rw [ensureLoop, if_neg (by decide)]
    simp [run, step, sbputb, ensure, mksb, wrChk, sbtrim] at h1
    obtain ⟨rfl, -⟩ := h1
    revert h2
    simp [sbpeek, sliceI]

/-- A history with growth and both kinds of trimming. -/
example : (run (fun n => List.replicate n 0) 9 (mksb fun n => List.replicate n 0)
    [.puts [1, 2, 3], .putc 0xe9, .trim (-1), .putb 7, .trim 2]).bind (fun p => sbpeek p.1) = .ok [1, 2] := by
  decide +kernel

end Verif.Slice
