import Verif.Ini.Text
import Verif.Ini.Table
import Verif.Sort.Props
import Verif.Bio.Props

/-!
# Loading (helper lemmas)
-/

namespace Verif.Ini

open Verif.Utf (Char32 enc CodePoints utf8 enc_cons enc_append)
open Verif.Str (isblankB isspaceB strfind)
open Verif.Htab (xhash upd)

theorem ieq_true (a b : Key) : ieq a b = true := by simp [ieq]

theorem xhash_eq (H : List Byte → BitVec 64) (p : Key) : xhash (ihash H) p = (pairHash H p).toNat := by
  unfold xhash ihash pairHash
  by_cases h : H p.1 ^^^ H p.2 = 0#64
  · rw [if_pos h, if_pos (by rw [h]; rfl)]; rfl
  · rw [if_neg h, if_neg]
    intro e
    exact h (BitVec.eq_of_toNat_eq (by rw [e]; rfl))

theorem eqH_iff (H : List Byte → BitVec 64) (p q : Key) :
    eqH (ihash H) p q = decide (pairHash H p = pairHash H q) := by
  unfold Ini.eqH
  rw [xhash_eq, xhash_eq]
  by_cases e : pairHash H p = pairHash H q
  · rw [e]; simp
  · rw [decide_eq_false e, beq_eq_false_iff_ne]
    exact fun hx => e (BitVec.eq_of_toNat_eq hx)

/-- The file holds the entries, up to the hash of the pairs. -/
def Agree (H : List Byte → BitVec 64) (ini : File) (es : Entries) : Prop :=
  ∃ m, Stands (ihash H) (fun _ => True) ini.elts m ∧
    ∀ p, m p = (es.find? fun e => pairHash H (encPair e.1) = pairHash H p).map fun e => enc e.2

theorem agree_empty (H : List Byte → BitVec 64) : Agree H empty [] :=
  ⟨_, stands_mkht _, fun _ => rfl⟩

theorem Agree.has {H : List Byte → BitVec 64} {ini : File} {es : Entries} (h : Agree H ini es) (s k : List Char32) :
    StdHtab.hthas ieq (ihash H) ini.elts (enc s, enc k) = .ok (findH H es s k).isSome := by
  obtain ⟨m, h1, h2⟩ := h
  rw [h1.has ieq_true (ihash H), h2]
  unfold findH encPair
  rw [Option.isSome_map, Option.isSome_map]

theorem Agree.get {H : List Byte → BitVec 64} {ini : File} {es : Entries} (h : Agree H ini es) (s k : List Char32) :
    Ini.get H ini (enc s) (enc k) = .ok ((findH H es s k).map enc) := by
  obtain ⟨m, h1, h2⟩ := h
  unfold Ini.get
  rw [h1.get ieq_true (ihash H), h2]
  unfold findH encPair
  rw [Option.map_map]
  rfl

theorem Agree.put {H : List Byte → BitVec 64} {ini : File} {es : Entries} (h : Agree H ini es) (s k v : List Char32) :
    ∃ t, StdHtab.htput ieq (ihash H) ini.elts (enc s, enc k) (enc v) = .ok t ∧
      Agree H { ini with elts := t } (((s, k), v) :: es) := by
  obtain ⟨m, h1, h2⟩ := h
  obtain ⟨t, e1, e2⟩ := h1.put ieq_true (ihash H) (enc s, enc k) trivial (enc v)
  refine ⟨t, e1, _, e2, fun p => ?_⟩
  unfold upd
  rw [eqH_iff, List.find?_cons, h2 p]
  unfold encPair
  dsimp only
  by_cases e : pairHash H (enc s, enc k) = pairHash H p
  · simp only [e, decide_true, if_true, Option.map_some]
  · simp only [e, decide_false, Bool.false_eq_true, if_false]

theorem lsearch_total (s : List Byte) (ss : List (List Byte)) : ∃ b, lsearch s ss = .ok b := by
  induction ss with
  | nil => exact ⟨_, rfl⟩
  | cons t ss ih =>
    unfold lsearch
    rw [Sort.strcmp_spec, Res.bind_ok]
    split
    · exact ⟨_, rfl⟩
    · exact ih

theorem section_enc {n : Nat} {ini : File} {b : List Char32} (hb : CodePoints b) (hh : b.head? = some 0x5b#32) :
    if 0x5d#32 ∈ b ∧ (b.dropWhile (· ≠ 0x5d#32)).length = 1 then
      ∃ ini', parsesection n ini (enc b) = .ok (.ok (enc (strip (b.takeWhile (· ≠ 0x5d#32)).tail), ini')) ∧
        ini'.elts = ini.elts
    else parsesection n ini (enc b) = .ok (.error (.parseerr n)) := by
  have hf := find_enc (x := 0x5d#8) (by decide) hb
  have hchr : chr 0x5d#8 = 0x5d#32 := by decide
  rw [hchr] at hf
  unfold parsesection
  rw [hf, Res.bind_ok]
  by_cases hm : 0x5d#32 ∈ b
  · have hsp := split_first hm
    have henc := congrArg enc hsp
    rw [enc_append, enc_cons, show (0x5d#32 : Char32) = chr 0x5d#8 from hchr.symm, utf8_chr (by decide), hchr] at henc
    have hlen := congrArg List.length henc
    simp only [List.length_append, List.length_cons, List.length_nil] at hlen
    have hdl : (b.dropWhile (· ≠ 0x5d#32)).length = (b.dropWhile (· ≠ 0x5d#32)).tail.length + 1 := by
      have h1 := List.takeWhile_append_dropWhile (p := fun x => decide (x ≠ 0x5d#32)) (l := b)
      have h2 := List.append_cancel_left (h1.trans hsp)
      rw [h2]; rfl
    rw [if_pos hm]
    by_cases hr : (b.dropWhile (· ≠ 0x5d#32)).tail = []
    · rw [hr] at hdl hlen
      have hlen' : (enc b).length = (enc (b.takeWhile (· ≠ 0x5d#32))).length + 1 := by
        rw [hlen]; simp [Utf.enc]
      rw [if_pos ⟨hm, by rw [hdl]; rfl⟩]
      simp only
      rw [if_neg (by omega)]
      obtain ⟨t, ht⟩ : ∃ t, b.takeWhile (· ≠ 0x5d#32) = 0x5b#32 :: t := by
        cases b with
        | nil => cases hm
        | cons c b =>
          simp only [List.head?_cons, Option.some.injEq] at hh
          subst hh
          exact ⟨_, List.takeWhile_cons_of_pos (by decide)⟩
      have hsl : slice (enc b) 1 (enc (b.takeWhile (· ≠ 0x5d#32))).length = .ok (enc t) := by
        rw [slice_ok (by rw [ht, enc_cons, show (0x5b#32 : Char32) = chr 0x5b#8 from by decide, utf8_chr (by decide)]; simp)
          (by omega)]
        conv => lhs; rw [henc]
        rw [List.take_left, ht, enc_cons, show (0x5b#32 : Char32) = chr 0x5b#8 from by decide, utf8_chr (by decide)]
        rfl
      rw [hsl, Res.bind_ok, strstrip_enc (fun c hc => hb c (mem_takeWhile (by rw [ht]; exact List.mem_cons_of_mem _ hc))),
        Res.bind_ok]
      obtain ⟨bb, hbb⟩ := lsearch_total (enc (strip t)) ini.sects
      rw [hbb, Res.bind_ok, ht, List.tail_cons]
      refine ⟨_, rfl, ?_⟩
      split <;> rfl
    · have h1 : 0 < (b.dropWhile (· ≠ 0x5d#32)).tail.length := List.length_pos_iff.2 hr
      have h2 := Str.enc_pos hr
      rw [if_neg (by rintro ⟨-, h⟩; omega)]
      simp only
      have h4 : (enc b).length = (enc (b.takeWhile (· ≠ 0x5d#32))).length +
          (0 + 1 + (enc (b.dropWhile (· ≠ 0x5d#32)).tail).length) := hlen
      have h3 : (enc (b.takeWhile (· ≠ 0x5d#32))).length ≠ (enc b).length - 1 := by omega
      rw [if_pos h3]
      rfl
  · rw [if_neg hm, if_neg (fun h => hm h.1)]
    rfl

theorem kvp_enc {H : List Byte → BitVec 64} {n : Nat} {ini : File} {es : Entries} (hag : Agree H ini es) {s b : List Char32} (hb : CodePoints b) :
    if 0x3d#32 ∈ b then
      if (findH H es s (strip (b.takeWhile (· ≠ 0x3d#32)))).isSome then
        parsekvp H n (enc s) ini (enc b) = .ok (.error (.dupkey n))
      else ∃ ini', parsekvp H n (enc s) ini (enc b) = .ok (.ok (enc s, ini')) ∧
        Agree H ini' (((s, strip (b.takeWhile (· ≠ 0x3d#32))), strip (b.dropWhile (· ≠ 0x3d#32)).tail) :: es)
    else parsekvp H n (enc s) ini (enc b) = .ok (.error (.parseerr n)) := by
  have hf := find_enc (x := 0x3d#8) (by decide) hb
  have hchr : chr 0x3d#8 = 0x3d#32 := by decide
  rw [hchr] at hf
  unfold parsekvp
  rw [hf, Res.bind_ok]
  by_cases hm : 0x3d#32 ∈ b
  · rw [if_pos hm, if_pos hm]
    have h1 := slice_enc_left (x := 0x3d#8) (cs := b) (by rw [hchr]; exact hm)
    have h2 := slice_enc_right (x := 0x3d#8) (by decide) (cs := b) (by rw [hchr]; exact hm)
    rw [hchr] at h1 h2
    have c1 : CodePoints (b.takeWhile (· ≠ 0x3d#32)) := fun c hc => hb c (mem_takeWhile hc)
    have c2 : CodePoints (b.dropWhile (· ≠ 0x3d#32)).tail := fun c hc => hb c (mem_dropWhile (List.mem_of_mem_tail hc))
    simp only
    rw [h1, Res.bind_ok, strstrip_enc c1, Res.bind_ok, h2, Res.bind_ok, strstrip_enc c2, Res.bind_ok,
      hag.has, Res.bind_ok]
    split
    · rfl
    · obtain ⟨t, e1, e2⟩ := hag.put s (strip (b.takeWhile (· ≠ 0x3d#32))) (strip (b.dropWhile (· ≠ 0x3d#32)).tail)
      rw [e1, Res.bind_ok]
      exact ⟨_, rfl, e2⟩
  · rw [if_neg hm, if_neg hm]
    rfl

theorem body_mem {l : List Char32} {c : Char32} (h : c ∈ body l) : c ∈ l :=
  mem_strip (mem_takeWhile (mem_takeWhile h))

/-- What reading a line does. -/
theorem parseline_enc {H : List Byte → BitVec 64} {n : Nat} {ini : File} {es : Entries} (hag : Agree H ini es) {s l : List Char32} (hl : CodePoints l) :
    (line l = .nothing → parseline H n (enc s) ini (enc l) = .ok (.ok (enc s, ini))) ∧
    (∀ s', line l = .sect s' → CodePoints s' ∧
      ∃ ini', parseline H n (enc s) ini (enc l) = .ok (.ok (enc s', ini')) ∧ Agree H ini' es) ∧
    (∀ k v, line l = .pair k v → CodePoints k ∧ CodePoints v ∧
      if (findH H es s k).isSome then parseline H n (enc s) ini (enc l) = .ok (.error (.dupkey n))
      else ∃ ini', parseline H n (enc s) ini (enc l) = .ok (.ok (enc s, ini')) ∧
        Agree H ini' (((s, k), v) :: es)) ∧
    (line l = .junk → parseline H n (enc s) ini (enc l) = .ok (.error (.parseerr n))) := by
  have hb : CodePoints (body l) := fun c hc => hl c (body_mem hc)
  have hpl : parseline H n (enc s) ini (enc l) =
      if (enc (body l)).length = 0 then .ok (.ok (enc s, ini))
      else (do
        let c ← rdChk (enc (body l)) 0
        if c = 0x5b#8 then parsesection n ini (enc (body l)) else parsekvp H n (enc s) ini (enc (body l))) := by
    unfold parseline
    have c1 := cp_strip hl
    rw [strstrip_enc hl, Res.bind_ok, cut_enc (by decide) c1, Res.bind_ok,
      show chr 0x3b#8 = 0x3b#32 from by decide, cut_enc (by decide) (fun c hc => c1 c (mem_takeWhile hc)),
      show chr 0x23#8 = 0x23#32 from by decide, Res.bind_ok]
    rfl
  by_cases h0 : body l = []
  · have hL : line l = .nothing := by unfold line; rw [if_pos h0]
    have hR : parseline H n (enc s) ini (enc l) = .ok (.ok (enc s, ini)) := by
      rw [hpl, h0, if_pos (by simp [Utf.enc])]
    rw [hL, hR]
    exact ⟨fun _ => rfl, (fun _ h => by cases h), (fun _ _ h => by cases h), (fun h => by cases h)⟩
  · have h1 := Str.enc_pos h0
    rw [if_neg (by omega)] at hpl
    by_cases hh : (body l).head? = some 0x5b#32
    · have hr : rdChk (enc (body l)) 0 = .ok 0x5b#8 := by
        cases hbl : body l with
        | nil => exact absurd hbl h0
        | cons c r =>
          rw [hbl, List.head?_cons, Option.some.injEq] at hh
          subst hh
          rfl
      rw [hr, Res.bind_ok, if_pos rfl] at hpl
      rw [hpl]
      have hse := section_enc (n := n) (ini := ini) hb hh
      split at hse
      · next hc =>
        have hL : line l = .sect (strip ((body l).takeWhile (· ≠ 0x5d#32)).tail) := by
          unfold line; rw [if_neg h0, if_pos hh, if_pos hc]
        rw [hL]
        obtain ⟨ini', e1, e2⟩ := hse
        refine ⟨(fun h => by cases h), fun s' h => ?_, (fun _ _ h => by cases h), (fun h => by cases h)⟩
        injection h with h
        subst h
        refine ⟨cp_strip fun c hc => hb c (mem_takeWhile (List.mem_of_mem_tail hc)), ini', e1, ?_⟩
        obtain ⟨m, a1, a2⟩ := hag
        exact ⟨m, by rw [e2]; exact a1, a2⟩
      · next hc =>
        have hL : line l = .junk := by unfold line; rw [if_neg h0, if_pos hh, if_neg hc]
        rw [hL]
        exact ⟨(fun h => by cases h), (fun s' h => by cases h), (fun _ _ h => by cases h), fun _ => hse⟩
    · have hr : ∃ c, rdChk (enc (body l)) 0 = .ok c ∧ c ≠ 0x5b#8 := by
        rw [rdChk_ok h1]
        refine ⟨_, rfl, fun he => hh ?_⟩
        have : enc (body l) = [] ++ 0x5b#8 :: (enc (body l)).tail := by
          cases hE : enc (body l) with
          | nil => rw [hE] at h1; simp at h1
          | cons x t => simp only [hE, List.getElem_cons_zero] at he; rw [he]; rfl
        obtain ⟨s1, s2, e1, e2, -⟩ := split_ascii (by decide) _ _ _ hb this
        have : s1 = [] := by
          cases s1 with
          | nil => rfl
          | cons a b => have := Str.enc_pos (List.cons_ne_nil a b); rw [← e2] at this; simp at this
        subst this
        rw [e1, List.nil_append, List.head?_cons]
        exact congrArg some (by decide)
      obtain ⟨c, hr, hc⟩ := hr
      rw [hr, Res.bind_ok, if_neg hc] at hpl
      rw [hpl]
      have hkv := kvp_enc (n := n) (s := s) hag hb
      split at hkv
      · next hin =>
        have hL : line l = .pair (strip ((body l).takeWhile (· ≠ 0x3d#32)))
            (strip ((body l).dropWhile (· ≠ 0x3d#32)).tail) := by
          unfold line; rw [if_neg h0, if_neg hh, if_pos hin]
        rw [hL]
        refine ⟨(fun h => by cases h), (fun s' h => by cases h), fun k v h => ?_, (fun h => by cases h)⟩
        injection h with h1 h2
        subst h1 h2
        exact ⟨cp_strip fun c hc => hb c (mem_takeWhile hc),
          cp_strip fun c hc => hb c (mem_dropWhile (List.mem_of_mem_tail hc)), hkv⟩
      · next hin =>
        have hL : line l = .junk := by unfold line; rw [if_neg h0, if_neg hh, if_neg hin]
        rw [hL]
        exact ⟨(fun h => by cases h), (fun s' h => by cases h), (fun _ _ h => by cases h), fun _ => hkv⟩

/-- What loading must give. -/
def Loads (H : List Byte → BitVec 64) (r : Res (Except Error File)) : Except Error Entries → Prop
  | .ok es => ∃ ini, r = .ok (.ok ini) ∧ Agree H ini es
  | .error e => r = .ok (.error e)

theorem loadLoop_step {H : List Byte → BitVec 64} {fuel n : Nat} {f f' : Bio.Rd} {ini : File}
    {es : Entries} (hag : Agree H ini es) {s l : List Char32} (hl : CodePoints l)
    (rest : List (List Char32))
    (hr : Bio.readln f = .ok (f', .ok (enc l)))
    (ih : ∀ s' ini' es', Agree H ini' es' →
      Loads H (loadLoop H fuel f' (n + 1) (enc s') ini') (meaning (findH H) (n + 1) s' es' rest)) :
    Loads H (loadLoop H (fuel + 1) f n (enc s) ini) (meaning (findH H) n s es (l :: rest)) := by
  have hL : loadLoop H (fuel + 1) f n (enc s) ini = (parseline H n (enc s) ini (enc l)).bind fun q =>
      match q with
      | .error e => .ok (.error e)
      | .ok (sect, ini) => loadLoop H fuel f' (n + 1) sect ini := by
    rw [loadLoop, hr, Res.bind_ok]
    dsimp only
    cases parseline H n (enc s) ini (enc l) with
    | ok q => rcases q with e | ⟨_, _⟩ <;> rfl
    | abort => rfl
    | ub => rfl
    | spin => rfl
  rw [hL]
  obtain ⟨p1, p2, p3, p4⟩ := parseline_enc (n := n) (s := s) hag hl
  unfold meaning
  cases hc : line l with
  | nothing =>
    rw [p1 hc]
    exact ih s ini es hag
  | sect s' =>
    obtain ⟨-, ini', e1, e2⟩ := p2 s' hc
    rw [e1]
    exact ih s' ini' es e2
  | pair k v =>
    obtain ⟨-, -, h⟩ := p3 k v hc
    simp only
    split at h
    · next hx => rw [if_pos hx, h]; rfl
    · next hx =>
      obtain ⟨ini', e1, e2⟩ := h
      rw [if_neg hx, e1]
      exact ih s ini' _ e2
  | junk =>
    rw [p4 hc]
    rfl

theorem readln_calm {B : Nat} {f : Bio.Rd} (hB : 8 < B) (hw : Bio.WF B f) (hc : Bio.Calm f) (hcr : Bio.CrSafe f.pend) :
    ∃ f' r, Bio.readln f = .ok (f', r) ∧ Bio.WF B f' ∧ Bio.Calm f' ∧
      Bio.spec (fun _ => false) .readln f.pend = (Bio.out .bytes r, f'.pend) := by
  obtain ⟨f', o, h1, h2⟩ := Bio.readln_ok (fun _ => false) hw hB hcr
  obtain ⟨c1, c2⟩ := h2.calm hc
  rw [Bio.perform] at h1
  cases hr : Bio.readln f with
  | ok p =>
    rw [hr, Res.map_ok] at h1
    injection h1 with h1
    injection h1 with h3 h4
    subst h3 h4
    exact ⟨p.1, p.2, rfl, h2.wf, c1, c2⟩
  | abort => rw [hr] at h1; cases h1
  | ub => rw [hr] at h1; cases h1
  | spin => rw [hr] at h1; cases h1

theorem text_enc (ls : List (List Char32 × Bool)) (last : List Char32) :
    text ls last = enc ((ls.map fun l => l.1 ++ (if l.2 then [0x0d#32, 0x0a#32] else [0x0a#32])).flatten ++ last) := by
  unfold text
  induction ls with
  | nil => rfl
  | cons l ls ih =>
    rw [List.map_cons, List.flatten_cons, List.append_assoc, ih, List.map_cons, List.flatten_cons, List.append_assoc,
      enc_append, enc_append]
    obtain ⟨l, b⟩ := l
    cases b <;> simp [Utf.enc, utf8]

theorem cp_text {ls : List (List Char32 × Bool)} {last : List Char32} (h : ∀ l ∈ ls, IsLine l.1) (hl : IsLine last) :
    CodePoints ((ls.map fun l => l.1 ++ (if l.2 then [0x0d#32, 0x0a#32] else [0x0a#32])).flatten ++ last) := by
  intro c hc
  rcases List.mem_append.1 hc with hc | hc
  · obtain ⟨x, hx, hc⟩ := List.mem_flatten.1 hc
    obtain ⟨l, hl, rfl⟩ := List.mem_map.1 hx
    rcases List.mem_append.1 hc with hc | hc
    · exact (h l hl).1 c hc
    · split at hc <;> simp at hc
      · rcases hc with rfl | rfl <;> decide
      · subst hc; decide
  · exact hl.1 c hc

theorem isLine_noNl {l : List Char32} (h : IsLine l) : ∀ b ∈ enc l, (!Bio.isNl b) = true := by
  intro b hb
  unfold Bio.isNl
  rw [Bool.not_eq_true', Bool.or_eq_false_iff, decide_eq_false_iff_not, decide_eq_false_iff_not]
  constructor
  · rintro rfl; exact h.2.2 ((mem_enc (by decide) h.1).1 hb)
  · rintro rfl; exact h.2.1 ((mem_enc (by decide) h.1).1 hb)

theorem takeWhile_stop {α : Type} {p : α → Bool} {x : α} (hx : p x = false) : ∀ (l t : List α), (∀ b ∈ l, p b = true) →
    (l ++ x :: t).takeWhile p = l ∧ (l ++ x :: t).dropWhile p = x :: t
  | [], t, _ => by simp [hx]
  | a :: l, t, h => by
    obtain ⟨h1, h2⟩ := takeWhile_stop hx l t fun b hb => h b (List.mem_cons_of_mem _ hb)
    have h3 := h a (List.mem_cons_self ..)
    rw [List.cons_append, List.takeWhile_cons_of_pos h3, List.dropWhile_cons_of_pos h3, h1, h2]
    exact ⟨rfl, rfl⟩

theorem readln_eof {B : Nat} {f : Bio.Rd} (hB : 8 < B) (hw : Bio.WF B f) (hc : Bio.Calm f) (hp : f.pend = []) :
    ∃ f', Bio.readln f = .ok (f', .error .eof) := by
  obtain ⟨f', r, h1, -, -, h4⟩ := readln_calm hB hw hc (by rw [hp]; intro a b e; simp at e)
  rw [hp, Bio.spec, if_pos rfl] at h4
  injection h4 with h5 h6
  cases r with
  | ok x => cases h5
  | error e => injection h5 with h5; subst h5; exact ⟨f', h1⟩

theorem readln_last {B : Nat} {f : Bio.Rd} (hB : 8 < B) (hw : Bio.WF B f) (hc : Bio.Calm f) {l : List Char32}
    (hl : IsLine l) (h0 : l ≠ []) (hp : f.pend = enc l) :
    ∃ f', Bio.readln f = .ok (f', .ok (enc l)) ∧ Bio.WF B f' ∧ Bio.Calm f' ∧ f'.pend = [] := by
  obtain ⟨f', r, h1, h2, h3, h4⟩ := readln_calm hB hw hc (by rw [hp]; exact crSafe_enc hl.1)
  have hne : enc l ≠ [] := fun e => by have := Str.enc_pos h0; rw [e] at this; simp at this
  obtain ⟨t1, t2⟩ := takeWhile_all (isLine_noNl hl)
  rw [hp, Bio.spec, if_neg hne, t1, t2] at h4
  injection h4 with h5 h6
  cases r with
  | ok x => injection h5 with h5; subst h5; exact ⟨f', h1, h2, h3, h6.symm⟩
  | error e => cases h5

theorem readln_line {B : Nat} {f : Bio.Rd} (hB : 8 < B) (hw : Bio.WF B f) (hc : Bio.Calm f) {l : List Char32 × Bool}
    {ls : List (List Char32 × Bool)} {last : List Char32} (hl : ∀ x ∈ l :: ls, IsLine x.1) (hla : IsLine last)
    (hp : f.pend = text (l :: ls) last) :
    ∃ f', Bio.readln f = .ok (f', .ok (enc l.1)) ∧ Bio.WF B f' ∧ Bio.Calm f' ∧ f'.pend = text ls last := by
  obtain ⟨f', r, h1, h2, h3, h4⟩ := readln_calm hB hw hc
    (by rw [hp, text_enc]; exact crSafe_enc (cp_text hl hla))
  have hL := hl l (List.mem_cons_self ..)
  have key : ∃ x t, text (l :: ls) last = enc l.1 ++ x :: t ∧ (!Bio.isNl x) = false ∧
      Bio.afterLine (x :: t) = text ls last := by
    obtain ⟨l, b⟩ := l
    cases b with
    | true =>
      refine ⟨0x0d#8, 0x0a#8 :: text ls last, by simp [text], by decide, ?_⟩
      unfold Bio.afterLine
      rw [if_pos ⟨rfl, rfl⟩]
    | false =>
      refine ⟨0x0a#8, text ls last, by simp [text], by decide, ?_⟩
      cases text ls last with
      | nil => rfl
      | cons c t => unfold Bio.afterLine; rw [if_neg (fun h => absurd h.1 (by decide))]
  obtain ⟨x, t, e1, e2, e3⟩ := key
  obtain ⟨t1, t2⟩ := takeWhile_stop (p := fun b => !Bio.isNl b) e2 (enc l.1) t (isLine_noNl hL)
  rw [hp, e1, Bio.spec, if_neg (by simp), t1, t2, e3] at h4
  injection h4 with h5 h6
  cases r with
  | ok x => injection h5 with h5; subst h5; exact ⟨f', h1, h2, h3, h6.symm⟩
  | error e => cases h5

theorem loadLoop_text {H : List Byte → BitVec 64} {B : Nat} (hB : 8 < B) {last : List Char32} (hla : IsLine last) :
    ∀ (ls : List (List Char32 × Bool)) (fuel : Nat) (f : Bio.Rd) (n : Nat) (s : List Char32) (ini : File) (es : Entries),
      Bio.WF B f → Bio.Calm f → f.pend = text ls last → ls.length + 1 < fuel → (∀ l ∈ ls, IsLine l.1) →
      Agree H ini es →
      Loads H (loadLoop H fuel f n (enc s) ini) (meaning (findH H) n s es (ls.map (·.1) ++ [last])) := by
  intro ls
  induction ls with
  | nil =>
    intro fuel f n s ini es hw hc hp hf _ hag
    obtain ⟨fuel, rfl⟩ : ∃ k, fuel = k + 2 := ⟨fuel - 2, by simp at hf; omega⟩
    by_cases h0 : last = []
    · subst h0
      obtain ⟨f', h1⟩ := readln_eof hB hw hc hp
      rw [loadLoop, h1, Res.bind_ok]
      exact ⟨ini, rfl, hag⟩
    · obtain ⟨f', h1, h2, h3, h4⟩ := readln_last hB hw hc hla h0 hp
      refine loadLoop_step hag hla.1 [] h1 fun s' ini' es' hag' => ?_
      obtain ⟨f'', h5⟩ := readln_eof hB h2 h3 h4
      rw [loadLoop, h5, Res.bind_ok]
      exact ⟨ini', rfl, hag'⟩
  | cons l ls ih =>
    intro fuel f n s ini es hw hc hp hf hl hag
    obtain ⟨fuel, rfl⟩ : ∃ k, fuel = k + 1 := ⟨fuel - 1, by omega⟩
    obtain ⟨f', h1, h2, h3, h4⟩ := readln_line hB hw hc hl hla hp
    refine loadLoop_step hag (hl l (List.mem_cons_self ..)).1 (ls.map (·.1) ++ [last]) h1
      fun s' ini' es' hag' => ?_
    exact ih fuel f' (n + 1) s' ini' es' h2 h3 h4 (by simp at hf; omega)
      (fun x hx => hl x (List.mem_cons_of_mem _ hx)) hag'

theorem length_text (ls : List (List Char32 × Bool)) (last : List Char32) : ls.length ≤ (text ls last).length := by
  unfold text
  induction ls with
  | nil => exact Nat.zero_le _
  | cons l ls ih =>
    obtain ⟨l, b⟩ := l
    cases b <;> simp at ih ⊢ <;> omega

/-- Loading a text. -/
theorem loadf_text {H : List Byte → BitVec 64} {rbuf : List Byte} (hB : 8 < rbuf.length)
    {plan : List Bio.Ans} {ls : List (List Char32 × Bool)} {last : List Char32} (hh : (Bio.Src.mk (text ls last) plan).Honest)
    (hl : ∀ l ∈ ls, IsLine l.1) (hla : IsLine last) :
    Loads H (loadf H (Bio.mkRd rbuf ⟨text ls last, plan⟩)) (meaning (findH H) 1 [] [] (ls.map (·.1) ++ [last])) := by
  unfold loadf
  have hp := Bio.mkRd_pend (rbuf := rbuf) (s := ⟨text ls last, plan⟩)
  have hw := Bio.mkRd_wf (rbuf := rbuf) (s := ⟨text ls last, plan⟩)
  have h1 := Bio.fuel_pend hw
  rw [hp] at h1
  have h2 := length_text ls last
  exact loadLoop_text hB hla ls _ _ 1 [] empty [] hw ⟨rfl, hh⟩ hp (by dsimp only at h1; omega) hl
    (agree_empty H)

end Verif.Ini
