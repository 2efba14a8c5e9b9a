import Verif.Bio.Lines
import Verif.Bio.Writes

/-!
# C48 and C49: buffered reading and writing

The size of the buffers is 16 KiB in the code (bio.myr:46); the theorems hold for every size
above 8 bytes.
-/

namespace Verif.Bio

open Verif.Utf

/-! ## C48: reading -/

/-- Every reading call, on every file. -/
theorem op_ok (sp : Char32 → Bool) {B : Nat} {f : Rd} (hw : WF B f) (hB : 8 < B) (hcr : CrSafe f.pend)
    (op : ROp) (hop : Fits B op) :
    ∃ f' o, perform sp op f = .ok (f', o) ∧ OpOk sp B op f f' o := by
  cases op with
  | read n => exact read_ok sp hw
  | getb => exact getb_ok sp hw hB
  | peekb => exact peekb_ok sp hw hB
  | getc => exact getc_ok sp hw hB
  | peekc => exact peekc_ok sp hw hB
  | readto d => exact readto_ok sp hw hop
  | readterm d => exact readterm_ok sp hw hop
  | skipto d => exact skipto_ok sp hw hop
  | readln => exact readln_ok sp hw hB hcr
  | skipspace => exact skipspace_ok sp hw hB
  | getle n => exact getle_ok sp hw hB (by rcases hop with h | h | h | h <;> omega)
  | getbe n => exact getbe_ok sp hw hB (by rcases hop with h | h | h | h <;> omega)

/-- The claim of C48 with nothing left out: whatever pieces the source hands out, every call
of a history returns what it would return on the whole stream, and what is left in the
buffer and in the source is the rest of the stream. -/
def StreamClaim : Prop :=
  ∀ (sp : Char32 → Bool) (S : List Byte) (plan : List Ans) (rbuf : List Byte) (ops : List ROp),
    rbuf.length = 16384 → (Src.mk S plan).Honest → (∀ op ∈ ops, Fits 16384 op) →
    ∃ f', performs sp ops (mkRd rbuf ⟨S, plan⟩) = .ok (f', (specRun sp ops S).1) ∧
      (f'.rbuf.take f'.rend).drop f'.rstart ++ f'.src.rest = (specRun sp ops S).2

theorem performs_calm (sp : Char32 → Bool) {B : Nat} (hB : 8 < B) : ∀ (ops : List ROp) (f : Rd),
    WF B f → Calm f → CrSafe f.pend → (∀ op ∈ ops, Fits B op) →
    ∃ f', performs sp ops f = .ok (f', (specRun sp ops f.pend).1) ∧ f'.pend = (specRun sp ops f.pend).2 := by
  intro ops
  induction ops with
  | nil => intro f _ _ _ _; exact ⟨f, rfl, rfl⟩
  | cons op ops ih =>
    intro f hw hc hcr hfit
    obtain ⟨g, o, h1, h2⟩ := op_ok sp hw hB hcr op (hfit op List.mem_cons_self)
    obtain ⟨h3, h4⟩ := h2.calm hc
    obtain ⟨cs, h5, _⟩ := h2.acct
    obtain ⟨f', e1, e2⟩ := ih g h2.wf h3 (by rw [h5] at hcr; exact hcr.suffix)
      (fun x hx => hfit x (List.mem_cons_of_mem _ hx))
    refine ⟨f', ?_, ?_⟩
    · simp only [performs, h1, Res.bind_ok, e1, Res.pure_eq, specRun, h4]
    · simp only [specRun, h4, e2]

theorem mkRd_wf {rbuf : List Byte} {s : Src} : WF rbuf.length (mkRd rbuf s) :=
  ⟨Nat.le_refl _, Nat.zero_le _, rfl⟩

theorem mkRd_pend {rbuf : List Byte} {s : Src} : (mkRd rbuf s).pend = s.rest := by
  simp [Rd.pend, Rd.held, mkRd]

/-- **C48, partial.**  Whatever pieces a source without failures hands out, every history of
reading calls returns exactly what it would return on the whole stream.  Missing from
`StreamClaim`: streams in which a `\r` is followed by an overlong encoding of `\n`. -/
theorem reads_partial (sp : Char32 → Bool) (S : List Byte) (plan : List Ans) (rbuf : List Byte)
    (ops : List ROp) (hB : 8 < rbuf.length) (hh : (Src.mk S plan).Honest) (hcr : CrSafe S)
    (hfit : ∀ op ∈ ops, Fits rbuf.length op) :
    ∃ f', performs sp ops (mkRd rbuf ⟨S, plan⟩) = .ok (f', (specRun sp ops S).1) ∧
      (f'.rbuf.take f'.rend).drop f'.rstart ++ f'.src.rest = (specRun sp ops S).2 := by
  have := performs_calm sp hB ops (mkRd rbuf ⟨S, plan⟩) mkRd_wf ⟨rfl, hh⟩
    (by rw [mkRd_pend]; exact hcr) hfit
  rw [mkRd_pend] at this
  exact this

/-- The hypotheses of `reads_partial` and a run: the data `"k=v\r\nx"` handed out in pieces of
1, 2 and 3 bytes. -/
example : (performs (fun c => c = 0x20#32) [.peekb, .readto [0x3d#8], .readln, .getc, .getb]
      (mkRd (List.replicate 9 0) ⟨[0x6b#8, 0x3d#8, 0x76#8, 0x0d#8, 0x0a#8, 0x78#8],
        [.give 1, .give 2, .give 3]⟩)).map Prod.snd =
    .ok [.byte 0x6b#8, .bytes [0x6b#8], .bytes [0x76#8], .chr 0x78#32, .err .eof] := by
  decide +kernel

example : (Src.mk [0x6b#8] [.give 1, .give 2, .give 3]).Honest ∧ CrSafe [0x76#8, 0x0d#8, 0x0a#8, 0x78#8] ∧
    Fits 9 (.readto [0x3d#8]) := by
  refine ⟨?_, ?_, by show 1 < 9; decide⟩
  · intro a ha
    simp only [List.mem_cons, List.not_mem_nil, or_false] at ha
    rcases ha with h | h | h <;> exact ⟨_, by omega, h⟩
  · intro a b hab ho
    rcases a with _ | ⟨x, _ | ⟨y, _ | ⟨z, _ | ⟨w, a⟩⟩⟩⟩ <;> simp at hab
    obtain ⟨_, rfl⟩ := hab
    rcases ho with ⟨y, t, h, _⟩ | ⟨y, z, t, h, _⟩ | ⟨y, z, w, t, h, _⟩ <;> simp at h

/-- Bytes that leave the stream during a history, one list per call. -/
inductive Accounts : List ROp → List Out → List (List Byte) → Prop
  | nil : Accounts [] [] []
  | cons {op o cs ops os css} : Shows op o cs → Accounts ops os css →
      Accounts (op :: ops) (o :: os) (cs :: css)

theorem performs_acct (sp : Char32 → Bool) {B : Nat} (hB : 8 < B) : ∀ (ops : List ROp) (f : Rd),
    WF B f → CrSafe f.pend → (∀ op ∈ ops, Fits B op) →
    ∃ f' os css, performs sp ops f = .ok (f', os) ∧ f.pend = css.flatten ++ f'.pend ∧
      Accounts ops os css := by
  intro ops
  induction ops with
  | nil => intro f _ _ _; exact ⟨f, [], [], rfl, rfl, .nil⟩
  | cons op ops ih =>
    intro f hw hcr hfit
    obtain ⟨g, o, h1, h2⟩ := op_ok sp hw hB hcr op (hfit op List.mem_cons_self)
    obtain ⟨cs, h5, h6⟩ := h2.acct
    obtain ⟨f', os, css, e1, e2, e3⟩ := ih g h2.wf (by rw [h5] at hcr; exact hcr.suffix)
      (fun x hx => hfit x (List.mem_cons_of_mem _ hx))
    refine ⟨f', o :: os, cs :: css, by simp only [performs, h1, Res.bind_ok, e1, Res.pure_eq], ?_, .cons h6 e3⟩
    rw [h5, e2, List.flatten_cons, List.append_assoc]

/-- **C48, partial: sources that fail.**  Whatever the source does – short reads, failing
calls, calls that return 0 before the end – no history of reading calls stops the program or
hangs, and the bytes that leave the stream are, in order, the bytes the calls show
(`Shows`).  Missing: the calls that search a delimiter lose bytes when they return an error
other than the end of the file (`errors_violated`). -/
theorem reads_accounted_partial (sp : Char32 → Bool) (S : List Byte) (plan : List Ans)
    (rbuf : List Byte) (ops : List ROp) (hB : 8 < rbuf.length) (hcr : CrSafe S)
    (hfit : ∀ op ∈ ops, Fits rbuf.length op) :
    ∃ f' os css, performs sp ops (mkRd rbuf ⟨S, plan⟩) = .ok (f', os) ∧
      S = css.flatten ++ ((f'.rbuf.take f'.rend).drop f'.rstart ++ f'.src.rest) ∧
      Accounts ops os css := by
  have := performs_acct sp hB ops (mkRd rbuf ⟨S, plan⟩) mkRd_wf (by rw [mkRd_pend]; exact hcr) hfit
  rw [mkRd_pend] at this
  exact this

/-- A run on a source that fails in the middle and pretends to be at its end. -/
example : (performs (fun c => c = 0x20#32) [.read 3, .getb, .getb, .read 5, .getb]
      (mkRd (List.replicate 9 0) ⟨[1#8, 2#8, 3#8, 4#8],
        [.give 1, .fail .einval, .give 0, .fail .ebadf, .give 2, .fail .other]⟩)).map Prod.snd =
    .ok [.bytes [1#8], .err .ebadf, .err .ebadf, .bytes [2#8, 3#8, 4#8], .err .eio] := by
  decide +kernel

theorem need_utf8 {c : Nat} (hc : c < 0x110000) {b : Byte} {t : List Byte} (h : utf8 c = b :: t) :
    need b ≤ (utf8 c).length := by
  have e : ∀ n, n < 256 → need (BitVec.ofNat 8 n) =
      if n < 0xc0 then 1 else if n < 0xe0 then 2 else if n < 0xf0 then 3 else if n < 0xf8 then 4 else 1 := by
    intro n hn
    unfold need
    rw [BitVec.toNat_ofNat, Nat.mod_eq_of_lt (by omega : n < 2 ^ 8)]
  unfold utf8 at h ⊢
  split at h
  · rename_i h1
    injection h with h2 _
    rw [← h2, if_pos h1, e _ (by omega), if_pos (by omega)]; simp
  · rename_i h1
    rw [if_neg h1]
    split at h
    · rename_i h3
      injection h with h2 _
      rw [← h2, if_pos h3, e _ (by omega), if_neg (by omega), if_pos (by omega)]; simp
    · rename_i h3
      rw [if_neg h3]
      split at h
      · rename_i h4
        injection h with h2 _
        rw [← h2, if_pos h4, e _ (by omega), if_neg (by omega), if_neg (by omega), if_pos (by omega)]; simp
      · rename_i h4
        injection h with h2 _
        rw [← h2, if_neg h4, e _ (by omega), if_neg (by omega), if_neg (by omega), if_neg (by omega),
          if_pos (by omega)]
        simp

/-- **C48, characters.**  On text, `getc` returns the characters one after the other and then
the end of the file, however the source cuts them into pieces. -/
theorem getc_text (sp : Char32 → Bool) (cs : List Char32) (hcs : CodePoints cs) (plan : List Ans)
    (rbuf : List Byte) (hB : 8 < rbuf.length) (hh : (Src.mk (enc cs) plan).Honest) :
    ∃ f', performs sp (List.replicate (cs.length + 1) .getc) (mkRd rbuf ⟨enc cs, plan⟩) =
      .ok (f', cs.map .chr ++ [.err .eof]) := by
  have gen : ∀ (cs : List Char32) (f : Rd), WF rbuf.length f → Calm f → f.pend = enc cs → CodePoints cs →
      ∃ f', performs sp (List.replicate (cs.length + 1) .getc) f = .ok (f', cs.map .chr ++ [.err .eof]) := by
    intro cs
    induction cs with
    | nil =>
      intro f hw hc hp _
      obtain ⟨g, o, h1, h2⟩ := getc_ok sp hw hB
      have h3 := (h2.calm hc).2
      rw [hp] at h3
      have h4 : (Out.err Err.eof, ([] : List Byte)) = (o, g.pend) := h3
      injection h4 with h4 h5
      refine ⟨g, ?_⟩
      simp only [List.length_nil, Nat.zero_add, List.replicate_one, performs, h1, Res.bind_ok,
        Res.pure_eq, ← h4, List.map_nil, List.nil_append]
    | cons c cs ih =>
      intro f hw hc hp hcp
      obtain ⟨g, o, h1, h2⟩ := getc_ok sp hw hB
      obtain ⟨h3, h4⟩ := h2.calm hc
      have hlt : c.toNat < 0x110000 := by
        exact hcp c List.mem_cons_self
      rw [hp, enc_cons] at h4
      have hdec : decode (utf8 c.toNat ++ enc cs) = .ok c := by
        unfold decode
        rw [charstep_utf8 _ hlt]
        simp
      have hlen : charlen c = (utf8 c.toNat).length := by
        have := utf8_length c.toNat hlt
        rw [ofNat_toNat] at this
        exact this.symm
      have hfc : firstChar (utf8 c.toNat ++ enc cs) = some c := by
        obtain ⟨b, t, hb⟩ : ∃ b t, utf8 c.toNat = b :: t := by
          cases h : utf8 c.toNat with
          | nil => exact absurd h (utf8_ne_nil _)
          | cons b t => exact ⟨b, t, rfl⟩
        have hneed := need_utf8 hlt hb
        rw [hb, List.cons_append] at hdec ⊢
        rw [hb] at hneed
        unfold firstChar
        simp only [hdec]
        rw [if_neg]
        simp at hneed ⊢; omega
      rw [spec, hfc] at h4
      simp only at h4
      rw [hlen, List.drop_left] at h4
      injection h4 with h4 h5
      obtain ⟨f', e1⟩ := ih g h2.wf h3 h5.symm (fun x hx => hcp x (List.mem_cons_of_mem _ hx))
      refine ⟨f', ?_⟩
      rw [List.length_cons, List.replicate_succ]
      simp only [performs, h1, Res.bind_ok, e1, Res.pure_eq, ← h4]
      rfl
  exact gen cs _ mkRd_wf ⟨rfl, hh⟩ mkRd_pend hcs

example : CodePoints [0x61#32, 0x20ac#32] ∧ enc [0x61#32, 0x20ac#32] = [0x61#8, 0xe2#8, 0x82#8, 0xac#8] := by
  refine ⟨?_, by decide⟩
  intro c hc
  simp only [List.mem_cons, List.not_mem_nil, or_false] at hc
  rcases hc with h | h <;> subst h <;> decide

/-- The stream `"\r\xc0\x8ax"` is not read as it should: `readln` takes the byte `0xc0` for
the first half of a `\r\n`. -/
theorem stream_violated : ¬ StreamClaim := by
  intro h
  obtain ⟨rb, hrb⟩ : ∃ rb : List Byte, rb.length = 16384 := ⟨_, List.length_replicate (a := 0#8)⟩
  obtain ⟨f', h1, _⟩ := h (fun _ => false) [0x0d#8, 0xc0#8, 0x8a#8, 0x78#8] [] rb
    [.readln, .getb] hrb (by intro a ha; simp at ha) (by
      intro op hop
      simp only [List.mem_cons, List.not_mem_nil, or_false] at hop
      rcases hop with h | h <;> subst h <;> trivial)
  generalize hf : mkRd rb ⟨[0x0d#8, 0xc0#8, 0x8a#8, 0x78#8], []⟩ = f at h1
  have hw : WF 16384 f := by
    rw [← hf]
    have := mkRd_wf (rbuf := rb) (s := ⟨[0x0d#8, 0xc0#8, 0x8a#8, 0x78#8], []⟩)
    rwa [hrb] at this
  have hp : f.pend = [0x0d#8, 0xc0#8, 0x8a#8, 0x78#8] := by rw [← hf, mkRd_pend]
  have hc : Calm f := by rw [← hf]; exact ⟨rfl, by intro a ha; simp [mkRd] at ha⟩
  -- the line
  obtain ⟨g, r, e1, e2⟩ := ensureread_spec (n := 1) hw (by decide)
  have hgp : g.pend = [0x0d#8, 0xc0#8, 0x8a#8, 0x78#8] := by rw [e2.pend, hp]
  obtain ⟨gc, ge⟩ := e2.calm hc
  have hl := held_length e2.wf
  have hcap := e2.wf.cap
  obtain ⟨k, rfl⟩ : ∃ k, r = .ok k := by
    cases r with
    | ok k => exact ⟨k, rfl⟩
    | error e =>
      have h3 := e2.err e rfl
      rw [← pend_eq_held (ge e rfl).2, hgp] at h3
      simp at h3
  have hk := e2.ok k rfl
  obtain ⟨m, m1, m2, m3⟩ := findNl_spec g.rbuf (g.rend - g.rstart) g.rstart (by omega)
  obtain ⟨b, b1, b2, b3⟩ := rd_head e2.wf (k := 0) (by omega)
  rw [Nat.add_zero] at b1
  rw [hgp] at b3
  injection b3 with b3
  subst b3
  have hm : m = some (g.rstart, 0x0d#8) := by
    obtain ⟨n, hn⟩ : ∃ n, g.rend - g.rstart = n + 1 := ⟨g.rend - g.rstart - 1, by omega⟩
    rw [hn, findNl, b1, Res.bind_ok, if_pos (.inl rfl)] at m1
    injection m1 with m1
    exact m1.symm
  obtain ⟨a1, a2, a3⟩ := adv e2.wf (k := 0) (by omega)
  obtain ⟨c1, c2, c3⟩ := adv e2.wf hk
  have hcp : Rd.pend { g with rstart := g.rstart + 1 } = [0xc0#8, 0x8a#8, 0x78#8] := by
    rw [c3, hgp]; rfl
  obtain ⟨q, r', q1, q2, q3, q4, q5⟩ := ensurecp_spec c1 (by decide)
  rw [hcp] at q3 q4 q5
  have hfc : firstChar [0xc0#8, 0x8a#8, 0x78#8] = some 0x0a#32 := by decide
  obtain ⟨qc, qe⟩ := q5 ⟨gc.1, gc.2⟩
  obtain ⟨k', rfl⟩ : ∃ k, r' = .ok k := by
    cases r' with
    | ok k => exact ⟨k, rfl⟩
    | error e => have := (qe e rfl).2; rw [hfc] at this; cases this
  obtain ⟨ch, d1, d2, d3, d4, d5, _⟩ := q4 k' rfl
  rw [hfc] at d4
  injection d4 with d4
  subst d4
  have hq1 : 1 ≤ q.held.length := List.length_pos_iff.2 d3
  obtain ⟨w1, w2, w3⟩ := adv q2 hq1
  have hln : perform (fun _ => false) .readln f = .ok ({ q with rstart := q.rstart + 1 }, .bytes []) := by
    obtain ⟨n, hn⟩ : ∃ n, f.fuel = n + 1 := ⟨_, rfl⟩
    simp only [perform, readln, hn, lnLoop, e1, Res.bind_ok, m1, hm, Nat.sub_self,
      readinto_spec e2.wf [] (Nat.zero_le _), List.take_zero, List.append_nil, eatNl, Nat.add_zero,
      if_true, peekc, q1, slice_held q2, d1, Res.pure_eq]
    rw [if_pos (show unwrapc (.ok 0x0a#32) 0xffffffff#32 = 0x0a#32 from rfl)]
    rfl
  -- the byte after it
  obtain ⟨z, o, z1, z2⟩ := getb_ok (fun _ => false) w1 (by decide)
  have z3 := (z2.calm ⟨qc.1, qc.2⟩).2
  rw [w3, q3] at z3
  have z4 : (Out.byte 0x8a#8, [0x78#8]) = (o, z.pend) := z3
  injection z4 with z4 z5
  have hrun : performs (fun _ => false) [.readln, .getb] f = .ok (z, [.bytes [], .byte 0x8a#8]) := by
    simp only [performs, hln, Res.bind_ok, z1, Res.pure_eq, ← z4]
  rw [hrun, Res.ok.injEq, Prod.mk.injEq] at h1
  have h2 := h1.2
  revert h2
  decide

/-- The claim of C48 for sources that fail: a call that returns an error takes nothing from
the stream. -/
def ErrorClaim : Prop :=
  ∀ (sp : Char32 → Bool) (S : List Byte) (plan : List Ans) (rbuf : List Byte) (op : ROp) (f' : Rd) (e : Err),
    rbuf.length = 16384 → Fits 16384 op → perform sp op (mkRd rbuf ⟨S, plan⟩) = .ok (f', .err e) →
    (f'.rbuf.take f'.rend).drop f'.rstart ++ f'.src.rest = S

/-- `readto(f, ",")` on a source that hands out `"ab"` and fails once returns the error and
drops `"ab"`. -/
theorem errors_violated : ¬ ErrorClaim := by
  intro h
  have key : ∀ (x0 x1 x2 : Byte) (t : List Byte),
      perform (fun _ => false) (.readto [0x2c#8]) (mkRd (x0 :: x1 :: x2 :: t) ⟨[0x61#8, 0x62#8], [.give 2, .fail .other]⟩) =
        .ok (⟨0x61#8 :: 0x62#8 :: x2 :: t, 0, 0, none, ⟨[], []⟩⟩, .err .eio) := by
    intro x0 x1 x2 t
    have ht : ¬ t.length + 1 + 1 + 1 < 2 := by omega
    simp [ht, perform, readto, readdelim, mkRd, Rd.fuel, delimLoop, ensureread, fill, shift, slice, store,
      fillLoop, Src.read, fillDone, findDelim, matchAt, rdChk, moveOut, readinto, out, errtype]
  obtain ⟨t, ht⟩ : ∃ t : List Byte, t.length = 16381 := ⟨_, List.length_replicate (a := 0#8)⟩
  have h3 := h (fun _ => false) [0x61#8, 0x62#8] [.give 2, .fail .other] (0 :: 0 :: 0 :: t) (.readto [0x2c#8])
    _ _ (by rw [List.length_cons, List.length_cons, List.length_cons, ht]) (by show 1 < 16384; decide) (key _ _ _ _)
  simp at h3

/-! ## C49: writing -/

theorem wop_fin {B : Nat} {f : Wr} {op : WOp} (hnf : op ≠ .flush)
    (h : ∃ f' r, wperform op f = .ok (f', r) ∧ WOk B (adds utf8 op) f f' r) :
    ∃ f' r, wperform op f = .ok (f', r) ∧ WWF B f' ∧
      (f.snk.Honest → f'.snk.Honest ∧ r = true ∧ f'.all = f.all ++ adds utf8 op) ∧
      (f.snk.out.length ≤ f'.snk.out.length) ∧
      ((∀ bs, op = .write bs → f.held.length + bs.length ≤ B ∨ f.held = []) → r = true →
        f'.all = f.all ++ adds utf8 op) ∧
      (op = .flush → f'.held = []) := by
  obtain ⟨f', r, h1, h2⟩ := h
  exact ⟨f', r, h1, h2.wf, fun hh => ⟨(h2.honest hh).1, (h2.honest hh).2, h2.ok (h2.honest hh).2⟩,
    h2.grow, fun _ hr => h2.ok hr, fun h => absurd h hnf⟩

theorem wop_ok {B : Nat} {f : Wr} (hw : WWF B f) (hB : 8 < B) (op : WOp) (hfit : WFits op) :
    ∃ f' r, wperform op f = .ok (f', r) ∧ WWF B f' ∧
      (f.snk.Honest → f'.snk.Honest ∧ r = true ∧ f'.all = f.all ++ adds utf8 op) ∧
      (f.snk.out.length ≤ f'.snk.out.length) ∧
      ((∀ bs, op = .write bs → f.held.length + bs.length ≤ B ∨ f.held = []) → r = true →
        f'.all = f.all ++ adds utf8 op) ∧
      (op = .flush → f'.held = []) := by
  cases op with
  | write bs =>
    have hl := hw.len
    have hc := hw.cap
    have hh : f.held.length = f.wend := by rw [Wr.held, List.length_take]; omega
    by_cases h : bs.length ≤ B - f.wend
    · obtain ⟨f', h1, h2, h3, h4⟩ := write_small hw h
      refine ⟨f', true, by simp only [wperform, h1]; rfl, h2, fun hh => ⟨by rw [h4]; exact hh, rfl, h3⟩,
        by rw [h4], fun _ _ => h3, (fun h => by cases h)⟩
    · obtain ⟨f', r, h1, h2, h3, h4, h5⟩ := write_big hw h
      refine ⟨f', r.isOk, by simp only [wperform, h1]; rfl, h2, h3, h5, fun hr => ?_, (fun h => by cases h)⟩
      rcases hr bs rfl with hr | hr
      · omega
      · exact h4 hr
  | putb b => exact wop_fin (fun h => by cases h) (putb_ok hw hB b)
  | putc c => exact wop_fin (fun h => by cases h) (putc_ok hw hB hfit)
  | putle v n =>
    exact wop_fin (fun h => by cases h)
      (putle_ok hw hB v (by unfold WFits at hfit; omega))
  | putbe v n =>
    exact wop_fin (fun h => by cases h)
      (putbe_ok hw hB v (by unfold WFits at hfit; omega))
  | flush =>
    obtain ⟨f', r, h1, h2, h3⟩ := flush_ok hw
    refine ⟨f', r, h1, h2.wf, fun hh => ⟨(h2.honest hh).1, (h2.honest hh).2, h2.ok (h2.honest hh).2⟩,
      h2.grow, fun _ hr => h2.ok hr, fun _ => h3⟩

theorem mkWr_wf {wbuf : List Byte} {s : Snk} : WWF wbuf.length (mkWr wbuf s) := ⟨Nat.zero_le _, rfl⟩

theorem wperforms_honest {B : Nat} (hB : 8 < B) : ∀ (ops : List WOp) (f : Wr), WWF B f →
    f.snk.Honest → (∀ op ∈ ops, WFits op) →
    ∃ f', wperforms ops f = .ok (f', List.replicate ops.length true) ∧
      f'.all = f.all ++ (ops.map (adds utf8)).flatten ∧ (∀ l, ops = l ++ [.flush] → f'.held = []) := by
  intro ops
  induction ops with
  | nil => intro f _ _ _; exact ⟨f, rfl, by simp, fun l hl => by simp at hl⟩
  | cons op ops ih =>
    intro f hw hh hfit
    obtain ⟨g, r, h1, h2, h3, -, -, h4⟩ := wop_ok hw hB op (hfit op List.mem_cons_self)
    obtain ⟨i1, i2, i3⟩ := h3 hh
    obtain ⟨f', e1, e2, e3⟩ := ih g h2 i1 (fun x hx => hfit x (List.mem_cons_of_mem _ hx))
    refine ⟨f', by simp only [wperforms, h1, Res.bind_ok, e1, Res.pure_eq, i2]; rfl, ?_, ?_⟩
    · rw [e2, i3, List.map_cons, List.flatten_cons, List.append_assoc]
    · intro l hl
      cases l with
      | nil =>
        rw [List.nil_append, List.cons.injEq] at hl
        obtain ⟨rfl, rfl⟩ := hl
        rw [wperforms, Res.ok.injEq, Prod.mk.injEq] at e1
        rw [← e1.1]; exact h4 rfl
      | cons a l =>
        rw [List.cons_append, List.cons.injEq] at hl
        exact e3 l hl.2

/-- **C49, partial: sinks that accept.**  For every history of writing calls ending with
`flush`, every buffer of more than eight bytes and every sink that takes at least one byte per
call – however few – every call reports success, and the sink has received exactly the bytes
written, in order.  Missing: sinks that fail (`reported_violated`; see
`writes_reported_partial`). -/
theorem writes_partial (wbuf : List Byte) (plan : List Ans) (ops : List WOp)
    (hB : 8 < wbuf.length) (hplan : ∀ a ∈ plan, ∃ k, 0 < k ∧ a = .give k)
    (hfit : ∀ op ∈ ops, WFits op) :
    ∃ f', wperforms (ops ++ [.flush]) (mkWr wbuf ⟨[], plan⟩) =
        .ok (f', List.replicate (ops.length + 1) true) ∧
      f'.snk.out = (ops.map (adds utf8)).flatten := by
  obtain ⟨f', h1, h2, h3⟩ := wperforms_honest hB (ops ++ [.flush]) (mkWr wbuf ⟨[], plan⟩) mkWr_wf hplan
    (by
      intro op hop
      rw [List.mem_append] at hop
      rcases hop with hop | hop
      · exact hfit op hop
      · rw [List.mem_singleton] at hop; subst hop; trivial)
  refine ⟨f', by rw [h1, List.length_append]; rfl, ?_⟩
  have h4 := h3 ops rfl
  rw [Wr.all, h4, List.append_nil] at h2
  rw [h2]
  simp [Wr.all, Wr.held, mkWr, adds]

/-- A run: a nine byte buffer, a sink that takes one or two bytes per call. -/
example : (wperforms [.putb 1#8, .write [2#8, 3#8, 4#8], .putc 0x20ac#32, .putle 0x0a09#64 2, .putbe 0x0b0c#64 2,
      .write (List.replicate 12 7#8), .flush]
      (mkWr (List.replicate 9 0) ⟨[], [.give 1, .give 2, .give 1]⟩)).map (fun p => (p.1.snk.out, p.2)) =
    .ok ([1#8, 2#8, 3#8, 4#8, 0xe2#8, 0x82#8, 0xac#8, 0x09#8, 0x0a#8, 0x0b#8, 0x0c#8] ++ List.replicate 12 7#8,
      List.replicate 7 true) := by
  decide +kernel

/-- The part of the claim about errors: if the sink fails, some call says so, i.e. when every
call of a history that ends with `flush` reports success the sink has received exactly the
bytes written. -/
def ReportedClaim : Prop :=
  ∀ (wbuf : List Byte) (plan : List Ans) (ops : List WOp) (f' : Wr), wbuf.length = 16384 →
    (∀ op ∈ ops, WFits op) →
    wperforms (ops ++ [.flush]) (mkWr wbuf ⟨[], plan⟩) = .ok (f', List.replicate (ops.length + 1) true) →
    f'.snk.out = (ops.map (adds utf8)).flatten

/-- The number of bytes that may wait in the buffer, and the condition that every `write` fits
into what is left of `B`, or finds nothing waiting. -/
def Roomy (B : Nat) : Nat → List WOp → Prop
  | _, [] => True
  | w, .write bs :: ops => (w + bs.length ≤ B ∨ w = 0) ∧ Roomy B (w + bs.length) ops
  | _, .flush :: ops => Roomy B 0 ops
  | w, op :: ops => Roomy B (w + (adds utf8 op).length) ops

theorem Roomy.step {B w : Nat} {op : WOp} {ops : List WOp} (h : Roomy B w (op :: ops)) :
    (∀ bs, op = .write bs → w + bs.length ≤ B ∨ w = 0) ∧
    (op ≠ .flush → Roomy B (w + (adds utf8 op).length) ops) ∧ (op = .flush → Roomy B 0 ops) := by
  cases op with
  | write bs => exact ⟨fun b hb => by injection hb with hb; subst hb; exact h.1, fun _ => h.2, (fun h => by cases h)⟩
  | flush => exact ⟨(fun b hb => by cases hb), fun h => absurd rfl h, fun _ => h⟩
  | _ => exact ⟨(fun b hb => by cases hb), fun _ => h, (fun h => by cases h)⟩

theorem wperforms_reported {B : Nat} (hB : 8 < B) : ∀ (ops : List WOp) (f : Wr) (w : Nat), WWF B f →
    f.held.length ≤ w → Roomy B w ops → (∀ op ∈ ops, WFits op) →
    ∃ f' bs, wperforms ops f = .ok (f', bs) ∧ bs.length = ops.length ∧
      (bs = List.replicate ops.length true →
        f'.all = f.all ++ (ops.map (adds utf8)).flatten ∧ (∀ l, ops = l ++ [.flush] → f'.held = [])) := by
  intro ops
  induction ops with
  | nil => intro f w _ _ _ _; exact ⟨f, [], rfl, rfl, fun _ => ⟨by simp, fun l hl => by simp at hl⟩⟩
  | cons op ops ih =>
    intro f w hw hle hro hfit
    obtain ⟨g, r, h1, h2, -, h5, h6, h4⟩ := wop_ok hw hB op (hfit op List.mem_cons_self)
    obtain ⟨r1, r2, r3⟩ := hro.step
    have hpre : ∀ bs, op = .write bs → f.held.length + bs.length ≤ B ∨ f.held = [] := by
      intro bs hbs
      rcases r1 bs hbs with h | h
      · exact .inl (by omega)
      · exact .inr (List.length_eq_zero_iff.1 (by omega))
    have tail : ∀ w', g.held.length ≤ w' → Roomy B w' ops → r = true → ∃ f' bs, wperforms (op :: ops) f = .ok (f', bs) ∧
        bs.length = (op :: ops).length ∧ (bs = List.replicate (op :: ops).length true →
        f'.all = f.all ++ ((op :: ops).map (adds utf8)).flatten ∧ (∀ l, op :: ops = l ++ [.flush] → f'.held = [])) := by
      intro w' hw' hr' hr
      obtain ⟨f', bs, e1, e2, e3⟩ := ih g w' h2 hw' hr' (fun x hx => hfit x (List.mem_cons_of_mem _ hx))
      refine ⟨f', r :: bs, by simp only [wperforms, h1, Res.bind_ok, e1, Res.pure_eq],
        by rw [List.length_cons, e2, List.length_cons], fun hb => ?_⟩
      rw [List.length_cons, List.replicate_succ, List.cons.injEq] at hb
      obtain ⟨i1, i2⟩ := e3 hb.2
      refine ⟨by rw [i1, h6 hpre hr, List.map_cons, List.flatten_cons, List.append_assoc], fun l hl => ?_⟩
      cases l with
      | nil =>
        rw [List.nil_append, List.cons.injEq] at hl
        obtain ⟨rfl, rfl⟩ := hl
        rw [wperforms, Res.ok.injEq, Prod.mk.injEq] at e1
        rw [← e1.1]; exact h4 rfl
      | cons a l =>
        rw [List.cons_append, List.cons.injEq] at hl
        exact i2 l hl.2
    by_cases hr : r = true
    · by_cases hop : op = .flush
      · exact tail 0 (by rw [h4 hop]; exact Nat.le_refl _) (r3 hop) hr
      · refine tail _ ?_ (r2 hop) hr
        have := congrArg List.length (h6 hpre hr)
        simp only [Wr.all, List.length_append] at this
        omega
    · -- the call reports a failure: the rest only has to run
      have any : ∀ (ops : List WOp) (f : Wr), WWF B f → (∀ op ∈ ops, WFits op) →
          ∃ f' bs, wperforms ops f = .ok (f', bs) ∧ bs.length = ops.length := by
        intro ops
        induction ops with
        | nil => intro f _ _; exact ⟨f, [], rfl, rfl⟩
        | cons op ops ih =>
          intro f hw hfit
          obtain ⟨g, r, h1, h2, -⟩ := wop_ok hw hB op (hfit op List.mem_cons_self)
          obtain ⟨f', bs, e1, e2⟩ := ih g h2 (fun x hx => hfit x (List.mem_cons_of_mem _ hx))
          exact ⟨f', r :: bs, by simp only [wperforms, h1, Res.bind_ok, e1, Res.pure_eq], by simp [e2]⟩
      obtain ⟨f', bs, e1, e2⟩ := any ops g h2 (fun x hx => hfit x (List.mem_cons_of_mem _ hx))
      refine ⟨f', r :: bs, by simp only [wperforms, h1, Res.bind_ok, e1, Res.pure_eq],
        by rw [List.length_cons, e2, List.length_cons], fun hb => ?_⟩
      rw [List.length_cons, List.replicate_succ, List.cons.injEq] at hb
      exact absurd hb.1 hr

/-- **C49, partial: sinks that fail.**  For every sink and every history of writing calls that
ends with `flush` and whose `write` calls either fit in the buffer or follow a `flush`
(`Roomy`), nothing stops the program, and if every call reports success the sink has received
exactly the bytes written: a failure of the sink that costs bytes is reported.  Missing: a
`write` larger than the room left in the buffer (`reported_violated`). -/
theorem writes_reported_partial (wbuf : List Byte) (plan : List Ans) (ops : List WOp)
    (hB : 8 < wbuf.length) (hroom : Roomy wbuf.length 0 (ops ++ [.flush]))
    (hfit : ∀ op ∈ ops, WFits op) :
    ∃ f' bs, wperforms (ops ++ [.flush]) (mkWr wbuf ⟨[], plan⟩) = .ok (f', bs) ∧
      bs.length = ops.length + 1 ∧
      (bs = List.replicate (ops.length + 1) true → f'.snk.out = (ops.map (adds utf8)).flatten) := by
  obtain ⟨f', bs, h1, h2, h3⟩ := wperforms_reported hB (ops ++ [.flush]) (mkWr wbuf ⟨[], plan⟩) 0 mkWr_wf
    (by simp [Wr.held, mkWr]) hroom
    (by
      intro op hop
      rw [List.mem_append] at hop
      rcases hop with hop | hop
      · exact hfit op hop
      · rw [List.mem_singleton] at hop; subst hop; trivial)
  refine ⟨f', bs, h1, by rw [h2, List.length_append]; rfl, fun hb => ?_⟩
  obtain ⟨i1, i2⟩ := h3 (by rw [hb, List.length_append]; rfl)
  have h4 := i2 ops rfl
  rw [Wr.all, h4, List.append_nil] at i1
  rw [i1]
  simp [Wr.all, Wr.held, mkWr, adds]

/-- A history that meets the hypotheses, on a sink that fails once: the flush says so. -/
example : Roomy 9 0 [.putb 1#8, .write [2#8, 3#8], .flush, .write (List.replicate 12 7#8), .flush] ∧
    (wperforms [.putb 1#8, .write [2#8, 3#8], .flush, .write (List.replicate 12 7#8), .flush]
      (mkWr (List.replicate 9 0) ⟨[], [.give 2, .fail .other]⟩)).map (fun p => (p.1.snk.out, p.2)) =
    .ok ([1#8, 2#8] ++ List.replicate 12 7#8, [true, true, false, true, true]) := by
  refine ⟨?_, by decide +kernel⟩
  simp [Roomy, adds]

/-- A byte waits in the buffer, the sink fails once while a large `write` flushes the buffer
(bio.myr:130 ignores the result of `flush`): every call reports success, the byte is lost. -/
theorem reported_violated : ¬ ReportedClaim := by
  intro h
  obtain ⟨t, ht⟩ : ∃ t : List Byte, t.length = 16383 := ⟨_, List.length_replicate (a := 0#8)⟩
  have key : ∀ (x : Byte) (t u : List Byte), t.length + 1 = u.length → 0 < t.length →
      wperforms [.putb 1#8, .write u, .flush] (mkWr (x :: t) ⟨[], [.fail .other]⟩) =
        .ok (⟨1#8 :: t, 0, ⟨u, []⟩⟩, [true, true, true]) := by
    intro x t u hu ht
    have h1 : wperform (.putb 1#8) (mkWr (x :: t) ⟨[], [.fail .other]⟩) =
        .ok (⟨1#8 :: t, 1, ⟨[], [.fail .other]⟩⟩, true) := by
      simp [wperform, putb, ensurewrite, mkWr, ht, wrChk, Except.isOk, Except.toBool]
    have h2 : wperform (.write u) ⟨1#8 :: t, 1, ⟨[], [.fail .other]⟩⟩ =
        .ok (⟨1#8 :: t, 0, ⟨u, []⟩⟩, true) := by
      have hu0 : u ≠ [] := by intro e; subst e; simp at hu
      have hs : slice u u.length u.length = .ok [] := by
        rw [slice_suffix (Nat.le_refl _), List.drop_length]
      obtain ⟨m, hm⟩ : ∃ m, u.length = m + 1 := ⟨t.length, hu.symm⟩
      have hw : ∀ f : Wr, f.snk = ⟨[], []⟩ → writebuf f u = .ok ({ f with snk := ⟨u, []⟩ }, .ok u.length) := by
        intro f hf
        rw [hm] at hs
        simp [writebuf, hf, wbLoop, Snk.write, hm, hs]
      have hf : flush ⟨1#8 :: t, 1, ⟨[], [.fail .other]⟩⟩ = .ok (⟨1#8 :: t, 0, ⟨[], []⟩⟩, false) := by
        simp [flush, slice, writebuf, wbLoop, Snk.write]
      simp only [wperform, write]
      rw [if_neg (by simp; omega), hf, Res.bind_ok, hw _ rfl]
      rfl
    have h3 : wperform .flush ⟨1#8 :: t, 0, ⟨u, []⟩⟩ = .ok (⟨1#8 :: t, 0, ⟨u, []⟩⟩, true) := by
      simp [wperform, flush, slice, writebuf, wbLoop]
    simp only [wperforms, h1, h2, h3, Res.bind_ok, Res.pure_eq]
  have h4 := h (0 :: t) [.fail .other] [.putb 1#8, .write (0 :: t)] _ (by rw [List.length_cons, ht])
    (by intro op hop; simp only [List.mem_cons, List.not_mem_nil, or_false] at hop
        rcases hop with rfl | rfl <;> trivial)
    (key 0 t (0 :: t) (by rw [List.length_cons]) (by omega))
  have h5 := congrArg List.length h4
  simp [adds] at h5

/-- After a failing `putb`, the buffer is kept although part of it was accepted
(bio.myr:500-505): the bytes accepted by the sink are sent again by the next call. -/
theorem retry_duplicates :
    (wperforms (List.replicate 9 (.putb 5#8) ++ [.putb 6#8, .flush])
      (mkWr (List.replicate 9 0) ⟨[], [.give 4, .fail .other]⟩)).map (fun p => (p.1.snk.out, p.2)) =
    .ok (List.replicate 13 5#8, List.replicate 9 true ++ [false, true]) := by
  decide +kernel

/-! ### What is written can be read -/

/-- **C49/C48: integers survive.**  The bytes `putle`/`putbe` add are those from which the
specification of `getle`/`getbe` computes the low bytes of the integer. -/
theorem int_round_trip (sp : Char32 → Bool) (v : BitVec 64) (n : Nat) (t : List Byte) :
    spec sp (.getle n) (adds utf8 (.putle v n) ++ t) = (.num (BitVec.ofNat 64 (v.toNat % 256 ^ n)), t) ∧
    spec sp (.getbe n) (adds utf8 (.putbe v n) ++ t) = (.num (BitVec.ofNat 64 (v.toNat % 256 ^ n)), t) := by
  have hl := lowBytes_length v.toNat n
  constructor
  · simp [spec, adds, hl, lowBytes_val]
  · simp [spec, adds, hl, lowBytes_val]

end Verif.Bio
