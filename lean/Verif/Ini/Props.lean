import Verif.Ini.Write

/-!
# C26: INI files
-/

namespace Verif.Ini

open Verif.Utf (Char32 enc CodePoints utf8 enc_cons enc_append)
open Verif.Htab (ListsDomain)

/-! ## `put` and `get` -/

/-- **C26, first half, in full**: after a history of `put`, `get` returns the value last put
for exactly that pair. -/
def MapClaim (H : List Byte → BitVec 64) : Prop :=
  ∀ (hist : Puts) (s k : List Byte), ∃ ini, puts H hist empty = .ok ini ∧ get H ini s k = .ok (lastPut hist s k)

/-- What the code does, for every hash of strings and every history: all calls succeed, and a
pair is answered by the last `put` of a pair with the same hash. -/
theorem puts_by_hash (H : List Byte → BitVec 64) (hist : Puts) :
    ∃ ini, puts H hist empty = .ok ini ∧ ∀ s k,
      get H ini s k = .ok (lastPutH H hist s k) ∧ has H ini s k = .ok (lastPutH H hist s k).isSome ∧
      ∀ d, getv H ini s k d = .ok ((lastPutH H hist s k).getD d) := by
  obtain ⟨ini, e1, m, a1, a2⟩ := puts_ok (H := H) (P := fun _ => True) hist empty (fun _ => none) (agreeB_empty H _)
    (fun _ _ => trivial)
  have a2 : ∀ s k, m (s, k) = lastPutH H hist s k := fun s k => by rw [a2 (s, k)]; simp
  refine ⟨ini, e1, fun s k => ⟨?_, ?_, fun d => ?_⟩⟩
  · unfold get; rw [a1.get ieq_true (ihash H), a2]
  · unfold has; rw [a1.has ieq_true (ihash H), a2]
  · unfold getv; rw [a1.getv ieq_true (ihash H), a2]

/-- **C26, partial.**  As long as different pairs among those put and asked for have different
hashes, `get`, `has` and `getv` answer with the value last put.  Missing from `MapClaim`: pairs
whose hashes agree. -/
theorem puts_get_partial (H : List Byte → BitVec 64) (hist : Puts) (qs : List (List Byte × List Byte))
    (ha : Apart H (hist.map (fun e => (e.1, e.2.1)) ++ qs)) :
    ∃ ini, puts H hist empty = .ok ini ∧ ∀ s k, (s, k) ∈ qs →
      get H ini s k = .ok (lastPut hist s k) ∧ has H ini s k = .ok (lastPut hist s k).isSome ∧
      ∀ d, getv H ini s k d = .ok ((lastPut hist s k).getD d) := by
  obtain ⟨ini, h1, h2⟩ := puts_by_hash H hist
  refine ⟨ini, h1, fun s k hq => ?_⟩
  have : lastPutH H hist s k = lastPut hist s k := by
    unfold lastPutH lastPut
    congr 1
    refine find_congr fun e he => ?_
    have := ha (e.1, e.2.1) (List.mem_append_left _ (List.mem_map_of_mem (List.mem_reverse.1 he))) (s, k)
      (List.mem_append_right _ hq)
    rw [decide_eq_decide]
    constructor
    · intro h; have := this h; injection this with h1 h2; exact ⟨h1, h2⟩
    · rintro ⟨h1, h2⟩; rw [h1, h2]
  rw [← this]
  exact h2 s k

/-- A hash with which the pairs of the example below are apart. -/
example : Apart (fun b => BitVec.ofNat 64 (b.length * b.length)) [([1#8], [1#8, 2#8]), ([], [7#8])] := by
  unfold Apart
  decide +kernel

/-- **C26, violated** for every hash of strings: after `put(ini, "a", "b", "1")`,
`get(ini, "b", "a")` finds "1". -/
theorem map_violated (H : List Byte → BitVec 64) : ¬ MapClaim H := by
  intro h
  obtain ⟨ini, h1, h2⟩ := h [([0x61#8], [0x62#8], [0x31#8])] [0x62#8] [0x61#8]
  obtain ⟨ini', h3, h4⟩ := puts_by_hash H [([0x61#8], [0x62#8], [0x31#8])]
  rw [h1] at h3
  injection h3 with h3
  subst h3
  rw [(h4 _ _).1] at h2
  have hx : pairHash H ([0x61#8], [0x62#8]) = pairHash H ([0x62#8], [0x61#8]) := by
    unfold pairHash
    dsimp only
    rw [BitVec.xor_comm]
  have e1 : lastPutH H [([0x61#8], [0x62#8], [0x31#8])] [0x62#8] [0x61#8] = some [0x31#8] := by
    simp [lastPutH, hx]
  rw [e1] at h2
  revert h2
  decide

/-- Pairs of a section with itself are all the same to `get`: after `put(ini, x, x, v)` every
`get(ini, y, y)` finds `v`. -/
theorem diagonal_violated (H : List Byte → BitVec 64) (x y v : List Byte) :
    ∃ ini, puts H [(x, x, v)] empty = .ok ini ∧ get H ini y y = .ok (some v) := by
  obtain ⟨ini, h1, h2⟩ := puts_by_hash H [(x, x, v)]
  refine ⟨ini, h1, ?_⟩
  rw [(h2 y y).1]
  simp [lastPutH, pairHash]

/-! ## Loading -/

/-- The result of loading is the one given: the same error, or a file that answers every
`get` of UTF-8 strings (specification). -/
def Means (H : List Byte → BitVec 64) (look : Look) (r : Except Error File) (m : Except Error Entries) : Prop :=
  match r, m with
  | .ok ini, .ok es => ∀ s k, CodePoints s → CodePoints k → get H ini (enc s) (enc k) = .ok ((look es s k).map enc)
  | .error e, .error e' => e = e'
  | _, _ => False

/-- **C26, loading, in full**: a file of UTF-8 lines loads to its meaning. -/
def LoadClaim (H : List Byte → BitVec 64) : Prop :=
  ∀ (rbuf : List Byte) (plan : List Bio.Ans) (ls : List (List Char32 × Bool)) (last : List Char32),
    8 < rbuf.length → (Bio.Src.mk (text ls last) plan).Honest → (∀ l ∈ ls, IsLine l.1) → IsLine last →
    ∃ r, loadf H (Bio.mkRd rbuf ⟨text ls last, plan⟩) = .ok r ∧
      Means H find r (meaning find 1 [] [] (ls.map (·.1) ++ [last]))

/-- What the code does, for every hash: it reads every line as specified, except that pairs
with the same hash are taken for the same pair. -/
theorem load_by_hash (H : List Byte → BitVec 64) (rbuf : List Byte) (plan : List Bio.Ans)
    (ls : List (List Char32 × Bool)) (last : List Char32) (hB : 8 < rbuf.length)
    (hh : (Bio.Src.mk (text ls last) plan).Honest) (hl : ∀ l ∈ ls, IsLine l.1) (hla : IsLine last) :
    ∃ r, loadf H (Bio.mkRd rbuf ⟨text ls last, plan⟩) = .ok r ∧
      Means H (findH H) r (meaning (findH H) 1 [] [] (ls.map (·.1) ++ [last])) := by
  have h := loadf_text (H := H) hB hh hl hla
  cases hm : meaning (findH H) 1 [] [] (ls.map (·.1) ++ [last]) with
  | ok es =>
    rw [hm] at h
    obtain ⟨ini, h1, h2⟩ := h
    exact ⟨_, h1, fun s k _ _ => h2.get s k⟩
  | error e =>
    rw [hm] at h
    exact ⟨_, h, rfl⟩

/-- **C26, loading, partial.**  If different pairs among those in the file and those asked for
have different hashes, the file loads to its meaning.  Missing from `LoadClaim`: pairs whose
hashes agree. -/
theorem load_partial (H : List Byte → BitVec 64) (rbuf : List Byte) (plan : List Bio.Ans)
    (ls : List (List Char32 × Bool)) (last : List Char32) (hB : 8 < rbuf.length)
    (hh : (Bio.Src.mk (text ls last) plan).Honest) (hl : ∀ l ∈ ls, IsLine l.1) (hla : IsLine last)
    (qs : List (List Char32 × List Char32)) (hq : ∀ q ∈ qs, CodePoints q.1 ∧ CodePoints q.2)
    (ha : Apart H ((mentions [] (ls.map (·.1) ++ [last]) ++ qs).map encPair)) :
    (∀ e, meaning find 1 [] [] (ls.map (·.1) ++ [last]) = .error e →
      loadf H (Bio.mkRd rbuf ⟨text ls last, plan⟩) = .ok (.error e)) ∧
    (∀ es, meaning find 1 [] [] (ls.map (·.1) ++ [last]) = .ok es →
      ∃ ini, loadf H (Bio.mkRd rbuf ⟨text ls last, plan⟩) = .ok (.ok ini) ∧
        ∀ q ∈ qs, get H ini (enc q.1) (enc q.2) = .ok ((find es q.1 q.2).map enc)) := by
  have hcp : ∀ l ∈ ls.map (·.1) ++ [last], CodePoints l := by
    intro l hx
    rcases List.mem_append.1 hx with hx | hx
    · obtain ⟨y, h1, rfl⟩ := List.mem_map.1 hx; exact (hl y h1).1
    · rw [List.mem_singleton.1 hx]; exact hla.1
  have hmc := cp_mentions (ls.map (·.1) ++ [last]) [] hcp (fun c hc => by cases hc)
  have hap := Apart.find_eq (H := H) (ps := mentions [] (ls.map (·.1) ++ [last]) ++ qs) ha (by
    intro p hp
    rcases List.mem_append.1 hp with hp | hp
    · exact hmc p hp
    · exact hq p hp)
  obtain ⟨m1, m2⟩ := meaning_eq hap (ls.map (·.1) ++ [last]) 1 [] [] (fun p hp => List.mem_append_left _ hp)
    (fun e he => by cases he)
  have h := loadf_text (H := H) hB hh hl hla
  rw [m1] at h
  constructor
  · intro e he
    rw [he] at h
    exact h
  · intro es he
    rw [he] at h
    obtain ⟨ini, h1, h2⟩ := h
    refine ⟨ini, h1, fun q hqq => ?_⟩
    rw [h2.get, hap es (m2 es he) q (List.mem_append_right _ hqq)]

/-- The hypotheses can be met: two sections, a comment, a key with blanks around it. -/
example : meaning find 1 [] [] (["[a]", "b = x ; c", "", "[ c ]", "b=y"].map fun s => s.toList.map fun c =>
      BitVec.ofNat 32 c.toNat) =
    .ok [(([0x63#32], [0x62#32]), [0x79#32]), (([0x61#32], [0x62#32]), [0x78#32])] := by decide +kernel

/-- **C26, loading, violated** for every hash: the file
```
[a]
b=1
[b]
a=2
```
is rejected with a duplicate key on line 4. -/
theorem load_violated (H : List Byte → BitVec 64) : ¬ LoadClaim H := by
  intro h
  have hls : ∀ l ∈ [([0x5b#32, 0x61#32, 0x5d#32], false), ([0x62#32, 0x3d#32, 0x31#32], false),
      ([0x5b#32, 0x62#32, 0x5d#32], false), ([0x61#32, 0x3d#32, 0x32#32], false)], IsLine l.1 := by
    intro l hl
    simp only [List.mem_cons, List.not_mem_nil, or_false] at hl
    rcases hl with rfl | rfl | rfl | rfl <;> exact isLine_of (by decide +kernel)
  have hla : IsLine [] := isLine_of rfl
  obtain ⟨rb, hrb⟩ : ∃ rb : List Byte, rb.length = 16 := ⟨_, List.length_replicate (a := 0#8)⟩
  have hB : 8 < rb.length := by omega
  have hh : ∀ t, (Bio.Src.mk t []).Honest := fun t a ha => by cases ha
  obtain ⟨r, h1, h2⟩ := h rb [] _ [] hB (hh _) hls hla
  obtain ⟨r', h3, h4⟩ := load_by_hash H rb [] _ [] hB (hh _) hls hla
  rw [h1] at h3
  injection h3 with h3
  subst h3
  have e1 : meaning (findH H) 1 [] [] [[0x5b#32, 0x61#32, 0x5d#32], [0x62#32, 0x3d#32, 0x31#32],
      [0x5b#32, 0x62#32, 0x5d#32], [0x61#32, 0x3d#32, 0x32#32], []] = .error (.dupkey 4) := by
    have l1 : line [0x5b#32, 0x61#32, 0x5d#32] = .sect [0x61#32] := by decide +kernel
    have l2 : line [0x62#32, 0x3d#32, 0x31#32] = .pair [0x62#32] [0x31#32] := by decide +kernel
    have l3 : line [0x5b#32, 0x62#32, 0x5d#32] = .sect [0x62#32] := by decide +kernel
    have l4 : line [0x61#32, 0x3d#32, 0x32#32] = .pair [0x61#32] [0x32#32] := by decide +kernel
    have hx : pairHash H (encPair ([0x61#32], [0x62#32])) = pairHash H (encPair ([0x62#32], [0x61#32])) := by
      unfold pairHash encPair
      dsimp only
      rw [BitVec.xor_comm]
    simp [meaning, l1, l2, l3, l4, findH, hx]
  have e2 : meaning find 1 [] [] [[0x5b#32, 0x61#32, 0x5d#32], [0x62#32, 0x3d#32, 0x31#32],
      [0x5b#32, 0x62#32, 0x5d#32], [0x61#32, 0x3d#32, 0x32#32], []] =
      .ok [(([0x62#32], [0x61#32]), [0x32#32]), (([0x61#32], [0x62#32]), [0x31#32])] := by decide +kernel
  change Means H find r (meaning find 1 [] [] [[0x5b#32, 0x61#32, 0x5d#32], [0x62#32, 0x3d#32, 0x31#32],
    [0x5b#32, 0x62#32, 0x5d#32], [0x61#32, 0x3d#32, 0x32#32], []]) at h2
  change Means H (findH H) r (meaning (findH H) 1 [] [] [[0x5b#32, 0x61#32, 0x5d#32], [0x62#32, 0x3d#32, 0x31#32],
    [0x5b#32, 0x62#32, 0x5d#32], [0x61#32, 0x3d#32, 0x32#32], []]) at h4
  rw [e2] at h2
  rw [e1] at h4
  cases r with
  | ok ini => exact h4
  | error e => exact h2

/-! ## Writing and loading again -/

/-- **C26, second half, in full**: what a history of `put` of UTF-8 strings left, written to a
sink and loaded again, answers every `get` as before. -/
def RoundTrip (H : List Byte → BitVec 64) (hist : Entries) : Prop :=
  ∀ (wbuf rbuf : List Byte) (wplan : List Bio.Ans), 8 < wbuf.length → 8 < rbuf.length → (Bio.Snk.mk [] wplan).Honest →
    ∃ ini f, puts H (encPuts hist) empty = .ok ini ∧ writef H ini (Bio.mkWr wbuf ⟨[], wplan⟩) = .ok (f, true) ∧
      ∀ rplan, (Bio.Src.mk f.snk.out rplan).Honest →
        ∃ ini', loadf H (Bio.mkRd rbuf ⟨f.snk.out, rplan⟩) = .ok (.ok ini') ∧
          ∀ s k, get H ini' s k = get H ini s k

/-- **C26, partial.**  If the strings fit the format, then writing and loading preserve what
every `get` answers, for every hash, however the output and the input are cut into pieces.
Missing: strings that do not fit. -/
theorem round_trip_partial (H : List Byte → BitVec 64) (hist : Entries) (hf : ∀ e ∈ hist, Fine e) : RoundTrip H hist := by
  intro wbuf rbuf wplan hw hr hh
  obtain ⟨ini, m, L, f, p1, p2, p3, p4, p5, p6, p7, p8⟩ := write_ok (H := H) hw hh
    (fun e he => ⟨(hf e he).1.1, (hf e he).2.1.1, (hf e he).2.2.2.1⟩)
  refine ⟨ini, f, p1, p7, fun rplan hrp => ?_⟩
  have hfine : ∀ e ∈ L, Fine e := by
    intro e he
    obtain ⟨⟨x, x1, x2⟩, ⟨y, y1, y2⟩⟩ := p4 e he
    have a := hf x x1
    have b := hf y y1
    unfold Fine at a b ⊢
    rw [← x2, ← y2]
    exact ⟨a.1, a.2.1, a.2.2.1, b.2.2.2⟩
  have hll := isLine_lines L [] (fun e he => ⟨(hfine e he).1.1, (hfine e he).2.1.1, (hfine e he).2.2.2.1⟩)
  rw [p8, ← bytes_text] at hrp ⊢
  have h := loadf_text (H := H) hr hrp (fun l hl => by
    obtain ⟨x, h1, rfl⟩ := List.mem_map.1 hl
    exact hll x h1) (isLine_of rfl)
  have hmap : (lines [] L |>.map fun l => (l, false)).map (·.1) = lines [] L := by
    rw [List.map_map]; exact List.map_id _
  rw [hmap, meaning_lines L 1 [] [] hfine ?_ (fun e he => rfl)] at h
  · obtain ⟨ini', h1, m', h2, h3⟩ := h
    refine ⟨ini', h1, fun s k => ?_⟩
    unfold get
    rw [h2.get ieq_true (ihash H), p2.get ieq_true (ihash H), h3, find_table p5 p6]
    intro p q hpq
    rw [p3, p3, lastPutH_congr hpq]
  · have := p5.1
    rw [List.pairwise_map] at this
    refine this.imp fun {a b} h => ?_
    rw [eqH_iff] at h
    exact of_decide_eq_false h

/-- Strings that fit: section `a b`, key `k`, value `x=[y]`. -/
example : Fine (([0x61#32, 0x20#32, 0x62#32], [0x6b#32]), [0x78#32, 0x3d#32, 0x5b#32, 0x79#32, 0x5d#32]) := by
  refine ⟨⟨isLine_of (by decide +kernel), by decide +kernel, by decide, by decide, ?_⟩,
    ⟨isLine_of (by decide +kernel), by decide +kernel, by decide, by decide, ?_⟩, by decide,
    ⟨isLine_of (by decide +kernel), by decide +kernel, by decide, by decide, ?_⟩⟩
  · intro c hc; rw [List.mem_singleton.1 hc]; decide
  · intro c hc; rw [List.mem_singleton.1 hc]; decide
  · intro c hc; cases hc

/-- **C26, violated** for every hash: the value `a;b` is cut at the semicolon. -/
theorem round_trip_violated (H : List Byte → BitVec 64) :
    ¬ RoundTrip H [(([], [0x6b#32]), [0x61#32, 0x3b#32, 0x62#32])] := by
  intro h
  obtain ⟨rb, hrb⟩ : ∃ rb : List Byte, rb.length = 16 := ⟨_, List.length_replicate (a := 0#8)⟩
  have hB : 8 < rb.length := by omega
  have hh : (Bio.Snk.mk [] []).Honest := fun a ha => by cases ha
  have hl : ∀ e ∈ [((([] : List Char32), [0x6b#32]), [0x61#32, 0x3b#32, 0x62#32])],
      IsLine e.1.1 ∧ IsLine e.1.2 ∧ IsLine e.2 := by
    intro e he
    rw [List.mem_singleton] at he
    subst he
    exact ⟨isLine_of (by decide +kernel), isLine_of (by decide +kernel), isLine_of (by decide +kernel)⟩
  obtain ⟨ini, f, p1, p2, p3⟩ := h rb rb [] hB hB hh
  obtain ⟨ini1, m, L, f1, q1, q2, q3, q4, q5, q6, q7, q8⟩ := write_ok (H := H) (wbuf := rb) hB hh hl
  rw [p1] at q1
  injection q1 with q1
  subst q1
  rw [p2] at q7
  injection q7 with q7
  injection q7 with q7 _
  subst q7
  -- exactly one line is written
  have hm : m (encPair ([], [0x6b#32])) = some (enc [0x61#32, 0x3b#32, 0x62#32]) := by
    rw [q3]; simp [lastPutH, encPuts, encPair]
  have hL : L = [(([], [0x6b#32]), [0x61#32, 0x3b#32, 0x62#32])] := by
    have hall : ∀ e ∈ L, e = (([], [0x6b#32]), [0x61#32, 0x3b#32, 0x62#32]) := by
      intro e he
      obtain ⟨⟨x, x1, x2⟩, ⟨y, y1, y2⟩⟩ := q4 e he
      rw [List.mem_singleton] at x1 y1
      subst x1 y1
      exact Prod.ext x2.symm y2.symm
    cases L with
    | nil =>
      obtain ⟨k, hk, -⟩ := (q5.2 (encPair ([], [0x6b#32]))).1 (by rw [hm]; rfl)
      cases hk
    | cons a L =>
      cases L with
      | nil => rw [hall a (List.mem_cons_self ..)]
      | cons b L =>
        have h1 := hall a (List.mem_cons_self ..)
        have h2 := hall b (by simp)
        have h3 := q5.1
        rw [List.map_cons, List.map_cons, List.pairwise_cons] at h3
        have h4 := h3.1 _ (List.mem_cons_self ..)
        rw [h1, h2, eqH_iff] at h4
        simp at h4
  subst hL
  obtain ⟨ini', r1, r2⟩ := p3 [] (fun a ha => by cases ha)
  rw [q8, ← bytes_text] at r1
  have g := loadf_text (H := H) (rbuf := rb) hB (plan := [])
    (ls := (lines [] [(([], [0x6b#32]), [0x61#32, 0x3b#32, 0x62#32])]).map fun l => (l, false)) (last := [])
    (fun a ha => by cases ha) (fun l hl' => by
      obtain ⟨x, h1, rfl⟩ := List.mem_map.1 hl'
      exact isLine_lines _ [] hl x h1) (isLine_of rfl)
  have e1 : line [0x09#32, 0x6b#32, 0x20#32, 0x3d#32, 0x20#32, 0x61#32, 0x3b#32, 0x62#32] =
      .pair [0x6b#32] [0x61#32] := by decide +kernel
  have e2 : line [] = .nothing := by decide +kernel
  have hmean : meaning (findH H) 1 [] [] (((lines [] [(([], [0x6b#32]), [0x61#32, 0x3b#32, 0x62#32])]).map
      fun l => (l, false)).map (·.1) ++ [[]]) = .ok [(([], [0x6b#32]), [0x61#32])] := by
    simp [lines, pairLine, meaning, e1, e2, findH]
  rw [hmean] at g
  obtain ⟨ini2, g1, g2⟩ := g
  rw [r1] at g1
  injection g1 with g1
  injection g1 with g1
  subst g1
  have h1 := g2.get [] [0x6b#32]
  have h2 := r2 (enc []) (enc [0x6b#32])
  rw [h1] at h2
  unfold get at h2
  rw [q2.get ieq_true (ihash H), show (enc [], enc [0x6b#32]) = encPair ([], [0x6b#32]) from rfl, hm] at h2
  injection h2 with h2
  rw [show findH H [(([], [0x6b#32]), [0x61#32])] [] [0x6b#32] = some [0x61#32] from by simp [findH]] at h2
  revert h2
  decide

/-- **C26, violated**: `writef` reports success although nothing reached the file: the error of
the last flush is dropped (write.myr:27). -/
theorem write_reported_violated : ∃ (H : List Byte → BitVec 64) (hist : Puts) (wbuf : List Byte) (plan : List Bio.Ans),
    (do
      let ini ← puts H hist empty
      let p ← writef H ini (Bio.mkWr wbuf ⟨[], plan⟩)
      pure (p.1.snk.out, p.2)) = .ok ([], true) ∧ lastPut hist [] [0x6b#8] = some [0x76#8] :=
  ⟨fun _ => 5#64, [([], [0x6b#8], [0x76#8])], List.replicate 16 0#8, [.fail .einval], by decide +kernel, by decide⟩

end Verif.Ini
