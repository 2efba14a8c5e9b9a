import Verif.Optparse.Model
import Verif.Optparse.Spec
import Verif.Utf.Props

/-!
# Lemmas for the command line parser
-/

namespace Verif.Optparse

open Utf (Char32)

/-! ## It always ends -/

/-- What is still to be read. -/
def left (c : Ctx) : Nat := c.curarg.length + ((c.optargs.drop (c.argidx + 1)).map (fun w => w.length + 1)).sum

theorem sum_drop_le (l : List (List Byte)) (i j : Nat) (h : i ≤ j) :
    ((l.drop j).map (fun w => w.length + 1)).sum ≤ ((l.drop i).map (fun w => w.length + 1)).sum := by
  obtain ⟨k, rfl⟩ := Nat.le.dest h
  rw [← List.drop_drop]
  generalize l.drop i = m
  clear h
  induction k generalizing m with
  | zero => simp
  | succ k ih =>
    cases m with
    | nil => simp
    | cons a m =>
      have := ih m
      simp only [List.drop_succ_cons, List.map_cons, List.sum_cons]
      omega

theorem sum_drop_get (l : List (List Byte)) (i : Nat) (h : i < l.length) :
    ((l.drop i).map (fun w => w.length + 1)).sum =
      l[i].length + 1 + ((l.drop (i + 1)).map (fun w => w.length + 1)).sum := by
  rw [List.drop_eq_getElem_cons h, List.map_cons, List.sum_cons]

theorem decode_ok (w : List Byte) : ∃ c, Utf.decode w = .ok c ∧ (w = [] → c = Utf.Badchar) := by
  by_cases hw : w = []
  · subst hw
    exact ⟨Utf.Badchar, rfl, fun _ => rfl⟩
  · obtain ⟨c, h, _⟩ := Utf.decode_total w hw
    exact ⟨c, h, fun h' => absurd h' hw⟩

/-- `next` always returns; what it leaves is no more. -/
theorem nextFrom_total (n : Nat) : ∀ (c : Ctx) (i : Nat), i + n = c.optargs.length → c.argidx < i →
    ∃ c', nextFrom c i n = .ok c' ∧ c'.optargs = c.optargs ∧ c'.stores = c.stores ∧
      (c'.finished = true ∧ c'.curarg = c.curarg ∧ c'.argidx = c.argidx ∨
        c'.curarg.length + ((c'.optargs.drop (c'.argidx + 1)).map (fun w => w.length + 1)).sum ≤
          ((c.optargs.drop i).map (fun w => w.length + 1)).sum) := by
  induction n with
  | zero => intro c i _ _; exact ⟨_, rfl, rfl, rfl, .inl ⟨rfl, rfl, rfl⟩⟩
  | succ n ih =>
    intro c i hi hx
    have hl : i < c.optargs.length := by omega
    obtain ⟨ch, hd, he⟩ := decode_ok c.optargs[i]
    have hs := sum_drop_get c.optargs i hl
    unfold nextFrom
    rw [rdChk_ok hl, Res.bind_ok, hd, Res.bind_ok]
    split
    · rename_i hc
      split
      · obtain ⟨c', h1, h2, h3, h4⟩ := ih { c with optdone := true } (i + 1) (by simp only; omega) (by simp only; omega)
        refine ⟨c', h1, h2, h3, h4.imp id (fun h => ?_)⟩
        simp only at h
        omega
      · have hne : c.optargs[i] ≠ [] := by
          intro h0
          have := he h0
          rw [hc.2] at this
          exact absurd this (by decide)
        have hpos : 1 ≤ (c.optargs[i]).length := List.length_pos_iff.2 hne
        rw [slice_suffix hpos, Res.bind_ok]
        refine ⟨_, rfl, rfl, rfl, .inr ?_⟩
        simp only [List.length_drop]
        omega
    · obtain ⟨c', h1, h2, h3, h4⟩ := ih { c with args := c.args ++ [c.optargs[i]] } (i + 1) (by simp only; omega)
        (by simp only; omega)
      refine ⟨c', h1, h2, h3, h4.imp id (fun h => ?_)⟩
      simp only at h
      omega

/-- `next`, when there are no words left it ends as well. -/
theorem next_total (c : Ctx) : ∃ c', next c = .ok c' ∧ c'.optargs = c.optargs ∧ c'.stores = c.stores ∧
    left c' ≤ left c := by
  unfold next
  by_cases h : c.argidx + 1 ≤ c.optargs.length
  · obtain ⟨c', h1, h2, h3, h4⟩ := nextFrom_total (c.optargs.length - (c.argidx + 1)) c (c.argidx + 1) (by omega) (by omega)
    refine ⟨c', h1, h2, h3, ?_⟩
    unfold left
    rcases h4 with ⟨_, h5, h6⟩ | h4
    · rw [h5, h6, h2]
    · omega
  · rw [show c.optargs.length - (c.argidx + 1) = 0 by omega]
    exact ⟨_, rfl, rfl, rfl, Nat.le_refl _⟩

theorem left_storeArg (d : Option Nat) (a : List Byte) (c : Ctx) : left (storeArg d a c) = left c := by
  unfold storeArg
  split <;> rfl

theorem optinfo_bad (opts : List Opt) (h : ∀ o ∈ opts, o.opt ≠ Utf.Badchar) : optinfo Utf.Badchar opts = none := by
  induction opts with
  | nil => rfl
  | cons o os ih =>
    unfold optinfo
    rw [if_neg (h o (by simp)), ih (fun x hx => h x (by simp [hx]))]

/-- One round ends the program or leaves less. -/
theorem optnext_total (opts : List Opt) (junk : List Byte) (c : Ctx) (h : ∀ o ∈ opts, o.opt ≠ Utf.Badchar) :
    ∃ r, optnext opts junk c = .ok r ∧ ∀ o c', r = .go (o, c') → left c' < left c := by
  unfold optnext
  by_cases hc : c.curarg = []
  · rw [show Utf.charstep c.curarg = .ok (Utf.Badchar, []) by rw [hc]; rfl, Res.bind_ok]
    dsimp only
    rw [optinfo_bad opts h]
    exact ⟨_, rfl, fun o c' he => by cases he⟩
  · obtain ⟨ch, k, hs, _, hk, hk'⟩ := Utf.charstep_total c.curarg hc
    rw [hs, Res.bind_ok]
    dsimp only
    have hlt : left { c with curarg := c.curarg.drop k } < left c := by
      simp only [left, List.length_drop]
      omega
    cases optinfo ch opts with
    | none => exact ⟨_, rfl, fun o c' he => by cases he⟩
    | some p =>
      obtain ⟨t, nd, dst⟩ := p
      cases t with
      | false =>
        dsimp only
        split
        · obtain ⟨c', h1, _, _, h2⟩ := next_total { c with curarg := c.curarg.drop k }
          rw [h1, Res.bind_ok]
          refine ⟨_, rfl, fun o c'' he => ?_⟩
          cases he
          omega
        · refine ⟨_, rfl, fun o c'' he => ?_⟩
          cases he
          exact hlt
      | true =>
        dsimp only
        unfold takeArg
        dsimp only
        split
        · rw [slice_suffix (Nat.le_refl _), Res.bind_ok]
          obtain ⟨c', h1, _, _, h2⟩ := next_total { c with curarg := (c.curarg.drop k).drop (c.curarg.drop k).length }
          rw [h1, Res.bind_ok, Res.bind_ok]
          refine ⟨_, rfl, fun o c'' he => ?_⟩
          cases he
          rw [left_storeArg]
          refine Nat.lt_of_le_of_lt h2 (Nat.lt_of_le_of_lt ?_ hlt)
          simp only [left, List.length_drop]
          omega
        · split
          · rw [rdChk_ok (by omega), Res.bind_ok]
            obtain ⟨c', h1, _, _, h2⟩ := next_total { c with curarg := c.curarg.drop k, argidx := c.argidx + 1 }
            rw [h1, Res.bind_ok, Res.bind_ok]
            refine ⟨_, rfl, fun o c'' he => ?_⟩
            cases he
            rw [left_storeArg]
            refine Nat.lt_of_le_of_lt h2 (Nat.lt_of_le_of_lt ?_ hlt)
            have := sum_drop_le c.optargs (c.argidx + 1) (c.argidx + 1 + 1) (by omega)
            simp only [left]
            omega
          · split
            · exact ⟨_, rfl, fun o c' he => by cases he⟩
            · refine ⟨_, rfl, fun o c'' he => ?_⟩
              cases he
              rw [left_storeArg]
              exact hlt

theorem loop_total (opts : List Opt) (junk : List Byte) (h : ∀ o ∈ opts, o.opt ≠ Utf.Badchar) (fuel : Nat) :
    ∀ c acc, left c < fuel → ∃ r, loop opts junk fuel c acc = .ok r := by
  induction fuel with
  | zero => intro c acc hf; omega
  | succ f ih =>
    intro c acc hf
    unfold loop
    split
    · exact ⟨_, rfl⟩
    · obtain ⟨r, h1, h2⟩ := optnext_total opts junk c h
      rw [h1, Res.bind_ok]
      cases r with
      | exit s => exact ⟨_, rfl⟩
      | go p =>
        obtain ⟨o, c'⟩ := p
        exact ih c' _ (by have := h2 o c' rfl; omega)

/-! ## Words of characters -/

/-- Only code points. -/
def Cps (w : Spec.Word) : Prop := ∀ c ∈ w, c.toNat < 0x110000

theorem charstep_enc (c : Char32) (cs : List Char32) (h : c.toNat < 0x110000) :
    Utf.charstep (Utf.enc (c :: cs)) = .ok (c, Utf.enc cs) := by
  rw [Utf.enc_cons, Utf.charstep_utf8 _ h]
  simp

theorem enc_nil_iff (w : Spec.Word) (h : Cps w) : Utf.enc w = [] ↔ w = [] := by
  constructor
  · intro he
    cases w with
    | nil => rfl
    | cons c cs =>
      have := charstep_enc c cs (h c (by simp))
      rw [he] at this
      injection this with this
      injection this with h1 h2
      have h3 := h c (by simp)
      rw [← h1] at h3
      exact absurd h3 (by decide)
  · rintro rfl; rfl

theorem enc_dash (cs : List Char32) : Utf.enc (0x2d#32 :: cs) = 0x2d#8 :: Utf.enc cs := rfl

theorem enc_one_dash (w : Spec.Word) (h : Cps w) : Utf.enc w = [0x2d#8] ↔ w = [0x2d#32] := by
  constructor
  · intro he
    cases w with
    | nil => exact absurd he (by decide)
    | cons c cs =>
      have := charstep_enc c cs (h c (by simp))
      rw [he, show Utf.charstep [0x2d#8] = .ok (0x2d#32, []) from by decide] at this
      injection this with this
      injection this with h1 h2
      rw [(enc_nil_iff cs (fun x hx => h x (by simp [hx]))).1 h2.symm, ← h1]
  · rintro rfl; rfl

theorem enc_two_dashes (cs : List Char32) (h : Cps cs) :
    Utf.enc (0x2d#32 :: cs) = [0x2d#8, 0x2d#8] ↔ cs = [0x2d#32] := by
  rw [enc_dash]
  constructor
  · intro he
    injection he with _ he
    exact (enc_one_dash cs h).1 he
  · rintro rfl; rfl

/-! ## The words after the current one -/

/-- The next word and what those after it mean. -/
def sep (opts : List Spec.Opt) : List Spec.Word → Option (Spec.Word × Spec.Out)
  | [] => none
  | v :: ws => some (v, Spec.parse opts ws)

theorem parse_cons (opts : List Spec.Opt) (w : Spec.Word) (ws : List Spec.Word) :
    Spec.parse opts (w :: ws) = Spec.word opts w ws (Spec.parse opts ws) (sep opts ws) := by
  cases ws <;> rfl

/-- Operands before the rest. -/
def front (sk : List Spec.Word) : Spec.Out → Spec.Out
  | .done o a => .done o (sk ++ a)
  | r => r

theorem front_nil (o : Spec.Out) : front [] o = o := by cases o <;> rfl

theorem front_arg (w : Spec.Word) (sk : List Spec.Word) (o : Spec.Out) :
    (front sk o).arg w = front (w :: sk) o := by cases o <;> rfl

/-- The words that are left are fine. -/
def Fine (ws : List Spec.Word) : Prop := ∀ w ∈ ws, Cps w ∧ w ≠ [0x2d#32]

/-- The context inside a word: letters `cs` of the word are left, and the words `ws`. -/
structure Inside (c : Ctx) (cs : List Char32) (ws : List Spec.Word) : Prop where
  cps : Cps cs
  fine : Fine ws
  cur : c.curarg = Utf.enc cs
  opd : c.optdone = false
  fin : c.finished = false
  idx : c.argidx + 1 + ws.length = c.optargs.length
  rest : c.optargs.drop (c.argidx + 1) = ws.map Utf.enc

/-- The context after `next`, with operands `args` before and words `ws` left then. -/
def After (opts : List Spec.Opt) (args : List (List Byte)) (ws : List Spec.Word) (c : Ctx) : Prop :=
  (∃ sk, c.finished = true ∧ c.curarg = [] ∧ c.args = args ++ sk.map Utf.enc ∧ Spec.parse opts ws = .done [] sk) ∨
  (∃ sk cs ws', cs ≠ [] ∧ Inside c cs ws' ∧ c.args = args ++ sk.map Utf.enc ∧
    Spec.parse opts ws = front sk (Spec.cluster opts (Spec.parse opts ws') (sep opts ws') cs))

theorem nextFrom_done (n : Nat) : ∀ (c : Ctx) (i : Nat), i + n = c.optargs.length → c.optdone = true →
    nextFrom c i n = .ok { c with args := c.args ++ c.optargs.drop i, finished := true } := by
  induction n with
  | zero =>
    intro c i hi _
    rw [List.drop_of_length_le (by omega), List.append_nil]
    rfl
  | succ n ih =>
    intro c i hi hd
    have hl : i < c.optargs.length := by omega
    obtain ⟨ch, hdec, _⟩ := decode_ok c.optargs[i]
    unfold nextFrom
    rw [rdChk_ok hl, Res.bind_ok, hdec, Res.bind_ok, if_neg (by simp [hd])]
    rw [ih { c with args := c.args ++ [c.optargs[i]] } (i + 1) (by simp only; omega) hd]
    rw [List.drop_eq_getElem_cons hl]
    simp

theorem nextFrom_spec (opts : List Spec.Opt) (ws : List Spec.Word) : ∀ (c : Ctx) (i : Nat),
    i + ws.length = c.optargs.length → c.optargs.drop i = ws.map Utf.enc → Fine ws → c.optdone = false →
    c.finished = false → c.curarg = [] →
    ∃ c', nextFrom c i ws.length = .ok c' ∧ After opts c.args ws c' ∧ c'.stores = c.stores ∧ c'.optargs = c.optargs := by
  induction ws with
  | nil =>
    intro c i _ _ _ _ _ hcur
    exact ⟨_, rfl, .inl ⟨[], rfl, hcur, by simp, rfl⟩, rfl, rfl⟩
  | cons w ws ih =>
    intro c i hi hdr hf hod hfin hcur
    simp only [List.length_cons] at hi
    have hl : i < c.optargs.length := by omega
    rw [List.drop_eq_getElem_cons hl, List.map_cons] at hdr
    injection hdr with hw hdr
    have hfw := hf w (by simp)
    have hfs : Fine ws := fun x hx => hf x (by simp [hx])
    -- an operand
    have operand : ∀ ch, Utf.decode (Utf.enc w) = .ok ch → ch ≠ 0x2d#32 →
        (∀ k s, Spec.word opts w ws k s = k.arg w) →
        ∃ c', nextFrom c i (ws.length + 1) = .ok c' ∧ After opts c.args (w :: ws) c' ∧ c'.stores = c.stores ∧
          c'.optargs = c.optargs := by
      intro ch hd hne hword
      unfold nextFrom
      rw [rdChk_ok hl, Res.bind_ok, hw, hd, Res.bind_ok, if_neg (by simp [hne])]
      obtain ⟨c', h1, h2, h3, h4⟩ := ih { c with args := c.args ++ [Utf.enc w] } (i + 1) (by simp only; omega) hdr hfs hod
        hfin hcur
      refine ⟨c', h1, ?_, h3, h4⟩
      rw [After, parse_cons, hword]
      rcases h2 with ⟨sk, a1, a2, a3, a4⟩ | ⟨sk, cs, ws', b1, b2, b3, b4⟩
      · exact .inl ⟨w :: sk, a1, a2, by rw [a3]; simp, by rw [a4]; rfl⟩
      · exact .inr ⟨w :: sk, cs, ws', b1, b2, by rw [b3]; simp, by rw [b4, front_arg]⟩
    cases w with
    | nil => exact operand _ rfl (by decide) (fun k s => by simp [Spec.word])
    | cons a t =>
      have ha : a.toNat < 0x110000 := hfw.1 a (by simp)
      have hdec : Utf.decode (Utf.enc (a :: t)) = .ok a := by
        rw [Utf.decode, charstep_enc a t ha, Res.bind_ok]
        rfl
      by_cases hd : a = 0x2d#32
      · subst hd
        have ht : Cps t := fun x hx => hfw.1 x (by simp [hx])
        show ∃ c', nextFrom c i (ws.length + 1) = .ok c' ∧ _
        unfold nextFrom
        rw [rdChk_ok hl, Res.bind_ok, hw, hdec, Res.bind_ok, if_pos ⟨hod, rfl⟩]
        by_cases h2 : t = [0x2d#32]
        · rw [if_pos ((enc_two_dashes t ht).2 h2)]
          rw [nextFrom_done ws.length _ _ (by simp only; omega) rfl]
          refine ⟨_, rfl, .inl ⟨ws, rfl, hcur, ?_, ?_⟩, rfl, rfl⟩
          · simp only [hdr]
          · rw [parse_cons, h2]
            simp [Spec.word]
        · rw [if_neg (fun h => h2 ((enc_two_dashes t ht).1 h))]
          have hne : t ≠ [] := by
            intro h0
            exact hfw.2 (by rw [h0])
          rw [slice_suffix (by rw [enc_dash]; simp), Res.bind_ok]
          refine ⟨_, rfl, .inr ⟨[], t, ws, hne, ⟨ht, hfs, ?_, hod, hfin, ?_, hdr⟩, by simp, ?_⟩, rfl, rfl⟩
          · simp only [enc_dash, List.drop_succ_cons, List.drop_zero]
          · simp only; omega
          · rw [front_nil, parse_cons, Spec.word, if_neg (by simp [h2])]
            simp [hne]
      · exact operand a hdec hd (fun k s => by simp [Spec.word, hd])

theorem next_spec (opts : List Spec.Opt) (ws : List Spec.Word) (c : Ctx) (hi : c.argidx + 1 + ws.length = c.optargs.length)
    (hd : c.optargs.drop (c.argidx + 1) = ws.map Utf.enc) (hf : Fine ws) (ho : c.optdone = false)
    (hfin : c.finished = false) (hc : c.curarg = []) :
    ∃ c', next c = .ok c' ∧ After opts c.args ws c' ∧ c'.stores = c.stores ∧ c'.optargs = c.optargs := by
  unfold next
  rw [show c.optargs.length - (c.argidx + 1) = ws.length by omega]
  exact nextFrom_spec opts ws c _ hi hd hf ho hfin hc

/-! ## The loop -/

/-- The option of the specification a description stands for. -/
def specOpt (o : Opt) : Spec.Opt := ⟨o.opt, decide (o.arg ≠ []), o.optional, o.dest⟩

theorem optinfo_find (ch : Char32) (opts : List Opt) :
    optinfo ch opts = ((opts.map specOpt).find? (fun o => decide (o.letter = ch))).map
      (fun o => (o.takes, !o.optional, o.dest)) := by
  induction opts with
  | nil => rfl
  | cons o os ih =>
    unfold optinfo
    by_cases h : o.opt = ch
    · rw [if_pos h, List.map_cons, List.find?_cons_of_pos (by simpa [specOpt] using h)]
      simp [specOpt, List.length_eq_zero_iff]
    · rw [if_neg h, List.map_cons, List.find?_cons_of_neg (by simpa [specOpt] using h), ih]

/-- An option as it is returned. -/
def encOpt (p : Char32 × Option Spec.Word) : Char32 × List Byte := (p.1, Utf.enc (p.2.getD []))

/-- A store as it is done. -/
def encStore (p : Nat × Spec.Word) : Nat × List Byte := (p.1, Utf.enc p.2)

/-- What the loop returns: `args`, `sts` and `acc` are the operands, stores and options before. -/
def Fin (opts : List Spec.Opt) (args : List (List Byte)) (sts : List (Nat × List Byte))
    (acc : List (Char32 × List Byte)) (out : Spec.Out) (r : Ends (List (Char32 × List Byte) × Ctx)) : Prop :=
  match out with
  | .help => r = .exit 0
  | .refused => r = .exit 1
  | .done o a =>
    if ∃ p ∈ o, p.2 = none then r = .exit 1
    else ∃ c', r = .go (acc ++ o.map encOpt, c') ∧ c'.args = args ++ a.map Utf.enc ∧
      c'.stores = sts ++ (Spec.stores opts o).map encStore

theorem Fin.front {opts args sts acc sk out r} (h : Fin opts (args ++ sk.map Utf.enc) sts acc out r) :
    Fin opts args sts acc (front sk out) r := by
  cases out with
  | help => exact h
  | refused => exact h
  | done o a =>
    unfold Fin at h ⊢
    dsimp only [Optparse.front] at h ⊢
    split
    · rwa [if_pos ‹_›] at h
    · rw [if_neg ‹_›] at h
      obtain ⟨c', h1, h2, h3⟩ := h
      exact ⟨c', h1, by rw [h2]; simp, h3⟩

/-- The stores of one option. -/
def oneStore (opts : List Spec.Opt) (ch : Char32) (v : Spec.Word) : List (Nat × List Byte) :=
  (Spec.stores opts [(ch, some v)]).map encStore

theorem stores_cons (opts : List Spec.Opt) (p : Char32 × Option Spec.Word) (o : List (Char32 × Option Spec.Word)) :
    Spec.stores opts (p :: o) = Spec.stores opts [p] ++ Spec.stores opts o := by
  unfold Spec.stores
  rw [← List.filterMap_append]
  rfl

theorem Fin.opt {opts args sts acc ch v out r}
    (h : Fin opts args (sts ++ oneStore opts ch v) (acc ++ [(ch, Utf.enc v)]) out r) :
    Fin opts args sts acc (out.opt ch (some v)) r := by
  cases out with
  | help => exact h
  | refused => exact h
  | done o a =>
    unfold Fin at h ⊢
    dsimp only [Spec.Out.opt] at h ⊢
    have hiff : (∃ p ∈ (ch, some v) :: o, p.2 = none) ↔ ∃ p ∈ o, p.2 = none := by simp
    by_cases hn : ∃ p ∈ o, p.2 = none
    · rw [if_pos (hiff.2 hn)]
      rwa [if_pos hn] at h
    · rw [if_neg (fun x => hn (hiff.1 x))]
      rw [if_neg hn] at h
      obtain ⟨c', h1, h2, h3⟩ := h
      refine ⟨c', ?_, h2, ?_⟩
      · rw [h1]; simp [encOpt]
      · rw [h3, stores_cons]; simp [oneStore]

theorem storeArg_stores (dst : Option Nat) (a : List Byte) (c : Ctx) :
    (storeArg dst a c).stores = c.stores ++ (match dst with | some d => [(d, a)] | none => []) := by
  cases dst <;> simp [storeArg]

theorem Inside.storeArg {c cs ws} (d : Option Nat) (a : List Byte) (h : Inside c cs ws) :
    Inside (storeArg d a c) cs ws := by
  cases d with
  | none => exact h
  | some d => exact ⟨h.cps, h.fine, h.cur, h.opd, h.fin, h.idx, h.rest⟩

theorem After.storeArg {opts args ws c} (d : Option Nat) (a : List Byte) (h : After opts args ws c) :
    After opts args ws (storeArg d a c) := by
  cases d with
  | none => exact h
  | some d =>
    rcases h with ⟨sk, a1, a2, a3, a4⟩ | ⟨sk, cs, ws', b1, b2, b3, b4⟩
    · exact .inl ⟨sk, a1, a2, a3, a4⟩
    · exact .inr ⟨sk, cs, ws', b1, b2.storeArg (some d) a, b3, b4⟩

theorem oneStore_some (opts : List Spec.Opt) (ch : Char32) (v : Spec.Word) (o : Spec.Opt)
    (h : opts.find? (fun o => decide (o.letter = ch)) = some o) (ht : o.takes = true) :
    oneStore opts ch v = (match o.dest with | some d => [(d, Utf.enc v)] | none => []) := by
  unfold oneStore Spec.stores
  cases hd : o.dest <;> simp [h, hd, ht, encStore]

theorem oneStore_flag (opts : List Spec.Opt) (ch : Char32) (v : Spec.Word) (o : Spec.Opt)
    (h : opts.find? (fun o => decide (o.letter = ch)) = some o) (ht : o.takes = false) :
    oneStore opts ch v = [] := by
  unfold oneStore Spec.stores
  cases hd : o.dest <;> simp [h, hd, ht]

/-- What the loop does, from inside a word. -/
def LoopOk (opts : List Opt) (junk : List Byte) (fuel : Nat) : Prop :=
  ∀ c acc cs ws r, cs ≠ [] → Inside c cs ws → loop opts junk fuel c acc = .ok r →
    Fin (opts.map specOpt) c.args c.stores acc
      (Spec.cluster (opts.map specOpt) (Spec.parse (opts.map specOpt) ws) (sep (opts.map specOpt) ws) cs) r

theorem loop_after {opts : List Opt} {junk : List Byte} {fuel : Nat} (ih : LoopOk opts junk fuel) {c args ws acc r}
    (h : After (opts.map specOpt) args ws c) (hl : loop opts junk fuel c acc = .ok r) :
    Fin (opts.map specOpt) args c.stores acc (Spec.parse (opts.map specOpt) ws) r := by
  rcases h with ⟨sk, a1, a2, a3, a4⟩ | ⟨sk, cs, ws', b1, b2, b3, b4⟩
  · rw [a4]
    cases fuel with
    | zero => cases hl
    | succ f =>
      rw [loop, if_pos (by simp [optdone, a1, a2])] at hl
      injection hl with hl
      subst hl
      unfold Fin
      dsimp only
      rw [if_neg (by simp)]
      exact ⟨c, by simp, a3, by simp [Spec.stores]⟩
  · rw [b4]
    apply Fin.front
    rw [← b3]
    exact ih c acc cs ws' r b1 b2 hl

/-- After an option with an argument that is left out, the program always ends. -/
theorem loop_stuck (opts : List Opt) (junk : List Byte) (hb : ∀ o ∈ opts, o.opt ≠ Utf.Badchar) (fuel : Nat) (c : Ctx)
    (acc : List (Char32 × List Byte)) (r) (hc : c.curarg = []) (hf : c.finished = false)
    (h : loop opts junk fuel c acc = .ok r) : r = .exit 1 := by
  cases fuel with
  | zero => cases h
  | succ f =>
    have e : optnext opts junk c = .ok (.exit 1) := by
      unfold optnext
      rw [show Utf.charstep c.curarg = .ok (Utf.Badchar, []) by rw [hc]; rfl, Res.bind_ok]
      dsimp only
      rw [optinfo_bad opts hb]
      rfl
    rw [loop, if_neg (by simp [optdone, hf]), e, Res.bind_ok] at h
    injection h with h
    exact h.symm

theorem loop_ok (opts : List Opt) (junk : List Byte) (hb : ∀ o ∈ opts, o.opt ≠ Utf.Badchar) (fuel : Nat) :
    LoopOk opts junk fuel := by
  induction fuel with
  | zero => intro c acc cs ws r _ _ h; cases h
  | succ f ih =>
    intro c acc cs ws r hne hin hl
    obtain ⟨ch, cs, rfl⟩ := List.exists_cons_of_ne_nil hne
    have hch := hin.cps ch (by simp)
    have hcs : Cps cs := fun x hx => hin.cps x (by simp [hx])
    rw [loop, if_neg (by simp [optdone, hin.fin])] at hl
    have hstep : Utf.charstep c.curarg = .ok (ch, Utf.enc cs) := by rw [hin.cur]; exact charstep_enc ch cs hch
    unfold optnext at hl
    rw [hstep, Res.bind_ok] at hl
    dsimp only at hl
    rw [optinfo_find] at hl
    unfold Spec.cluster
    cases hfd : (opts.map specOpt).find? (fun o => decide (o.letter = ch)) with
    | none =>
      rw [hfd] at hl
      dsimp only [Option.map_none] at hl ⊢
      rw [Res.bind_ok] at hl
      injection hl with hl
      subst hl
      by_cases hq : ch = 0x68#32 ∨ ch = 0x3f#32
      · rw [if_pos hq, if_pos hq]; rfl
      · rw [if_neg hq, if_neg hq]; rfl
    | some o =>
      rw [hfd] at hl
      dsimp only [Option.map_some] at hl ⊢
      cases ht : o.takes with
      | false =>
        rw [ht] at hl
        dsimp only at hl
        rw [if_neg (by decide)]
        apply Fin.opt
        rw [oneStore_flag _ _ _ o hfd ht, List.append_nil]
        by_cases hemp : cs = []
        · subst hemp
          obtain ⟨c', n1, n2, n3, n4⟩ := next_spec (opts.map specOpt) ws { c with curarg := Utf.enc [] } hin.idx hin.rest
            hin.fine hin.opd hin.fin rfl
          rw [if_pos (by rfl), n1, Res.bind_ok, Res.bind_ok] at hl
          dsimp only at hl
          have := loop_after ih n2 hl
          rw [n3] at this
          exact this
        · have hemp' : Utf.enc cs ≠ [] := fun h => hemp ((enc_nil_iff cs hcs).1 h)
          rw [if_neg (by rw [List.length_eq_zero_iff]; exact hemp'), Res.bind_ok] at hl
          dsimp only at hl
          exact ih { c with curarg := Utf.enc cs } _ cs ws r hemp
            ⟨hcs, hin.fine, rfl, hin.opd, hin.fin, hin.idx, hin.rest⟩ hl
      | true =>
        rw [ht] at hl
        dsimp only at hl
        rw [if_pos rfl]
        unfold takeArg at hl
        dsimp only at hl
        by_cases hemp : cs = []
        · subst hemp
          rw [if_neg (by simp)]
          rw [if_neg (by decide)] at hl
          have hidx := hin.idx
          cases ws with
          | nil =>
            simp only [List.length_nil] at hidx
            rw [if_neg (by omega)] at hl
            dsimp only [sep]
            cases hop : o.optional with
            | false =>
              rw [hop, if_pos (by rfl), Res.bind_ok] at hl
              dsimp only at hl
              rw [Res.bind_ok] at hl
              injection hl with hl
              rw [if_neg (by decide)]
              exact hl.symm
            | true =>
              rw [hop, if_neg (by decide), Res.bind_ok] at hl
              dsimp only at hl
              rw [Res.bind_ok] at hl
              dsimp only at hl
              rw [if_pos rfl]
              unfold Fin
              dsimp only
              rw [if_pos ⟨_, List.mem_singleton.2 rfl, rfl⟩]
              refine loop_stuck opts junk hb f _ _ r ?_ ?_ hl
              · cases o.dest <;> rfl
              · cases o.dest <;> exact hin.fin
          | cons v ws =>
            simp only [List.length_cons] at hidx
            have hl' : c.argidx + 1 < c.optargs.length := by omega
            have hrest := hin.rest
            rw [List.drop_eq_getElem_cons hl', List.map_cons] at hrest
            injection hrest with hv hrest
            obtain ⟨c', n1, n2, n3, n4⟩ := next_spec (opts.map specOpt) ws
              { c with curarg := Utf.enc [], argidx := c.argidx + 1 } (by simp only; omega) hrest
              (fun x hx => hin.fine x (by simp [hx])) hin.opd hin.fin rfl
            rw [if_pos (by omega), rdChk_ok hl', Res.bind_ok, n1, Res.bind_ok, Res.bind_ok] at hl
            dsimp only at hl
            rw [Res.bind_ok] at hl
            dsimp only at hl
            dsimp only [sep]
            apply Fin.opt
            have := loop_after ih (n2.storeArg o.dest _) hl
            rw [storeArg_stores, n3, hv] at this
            rw [oneStore_some _ _ _ o hfd ht]
            exact this
        · have hemp' : Utf.enc cs ≠ [] := fun h => hemp ((enc_nil_iff cs hcs).1 h)
          rw [if_pos (by simpa using hemp)]
          rw [if_pos (List.length_pos_iff.2 hemp'), slice_suffix (Nat.le_refl _), Res.bind_ok, List.drop_length] at hl
          obtain ⟨c', n1, n2, n3, n4⟩ := next_spec (opts.map specOpt) ws { c with curarg := [] } hin.idx hin.rest
            hin.fine hin.opd hin.fin rfl
          rw [n1, Res.bind_ok, Res.bind_ok] at hl
          dsimp only at hl
          rw [Res.bind_ok] at hl
          dsimp only at hl
          apply Fin.opt
          have := loop_after ih (n2.storeArg o.dest _) hl
          rw [storeArg_stores, n3] at this
          rw [oneStore_some _ _ _ o hfd ht]
          exact this

end Verif.Optparse
