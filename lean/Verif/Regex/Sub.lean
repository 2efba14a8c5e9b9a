import Verif.Regex.Flat
import Verif.Regex.Props

/-! # Theorems about substitution and about using a regex again (C72) -/

namespace Verif.Regex
open Verif.Utf

/-- `Edits gs subst off old new`: `new` is `old`, which starts at the offset `off`, with the part of each set
group replaced. The parts follow each other. -/
inductive Edits : Groups → List (List Byte) → Nat → List Byte → List Byte → Prop where
  /-- no group left -/
  | nil {off old} : Edits [] [] off old old
  /-- an unset group -/
  | unset {gs ss r off old new} : Edits gs ss off old new → Edits ((-1, -1) :: gs) (r :: ss) off old new
  /-- a set group -/
  | set {gs ss r off old new} (pre mid : List Byte) {a b : Nat} : a = off + pre.length → b = a + mid.length → Edits gs ss b old new →
      Edits (((a : Int), (b : Int)) :: gs) (r :: ss) off (pre ++ mid ++ old) (pre ++ r ++ new)

/-- `sub` should replace the groups if the pattern matches the whole text, and say that it does not otherwise. -/
def SubReplaces : Prop := ∀ tabs cs t n, CodePoints cs → Gr .alt cs t 1 n → Ok (fun _ => true) t = true → n ≤ 16 →
  ∃ N, ∀ fuel, N ≤ fuel → ∃ p, compile tabs fuel (enc cs) = .ok (.ok p) ∧
    (p.code.length ≤ 2 ^ 30 → ∀ s, Bmp s → ∀ subst, subst.length + 1 = n →
      ∃ M, ∀ f, M ≤ f → ∃ r o, sub p f .fresh s subst = .ok (r, o) ∧ (r = none ↔ ∀ g, ¬ Matches s t 0 s.length g))

/-- A regex that was used for a substitution should match as before. -/
def SubReusable : Prop := ∀ tabs fuel pat p, compile tabs fuel pat = .ok (.ok p) →
  ∀ s subst f r o, sub p f .fresh s subst = .ok (r, o) → ∀ s', (∃ k x, iexec p k .fresh s' = .ok x) → ∃ k x, iexec p k o s' = .ok x

/-- `suball` should end if each of its searches does. -/
def SuballEnds : Prop := ∀ tabs fuel pat p, compile tabs fuel pat = .ok (.ok p) →
  ∀ s subst, (∀ i, ∃ k x, run p k .fresh (s.drop i) false = .ok x) → ∃ k n, suball p k n .fresh s subst ≠ .spin

/-- The program of the pattern `((a))`. -/
theorem compile_nest (N : Nat) : compile noTabs (N + 60) [40, 40, 97, 41, 41] = .ok (.ok { code := [.lbra 0, .lbra 1, .lbra 2, .byte 97, .rbra 2, .rbra 1, .rbra 0, .mtch 0].map encinst, nmatch := 3 }) := by
  rfl

theorem gr_nest : Gr .alt [40#32, 40#32, 97#32, 41#32, 41#32] (.cap 1 (.cap 2 (.chr 97#32))) 1 3 := by
  have a : Gr .alt [97#32] (.chr 97#32) 3 3 := .only (.last (.one (.chr ⟨by decide, by decide⟩)))
  have b : Gr .alt [40#32, 97#32, 41#32] (.cap 2 (.chr 97#32)) 2 3 := .only (.last (.one (.cap a)))
  exact .only (.last (.one (.cap b)))

/-- C72 does not hold for nested groups: `((a))` on "a" slices `str[1:0]`, a length of -1. -/
theorem sub_replaces_violated : ¬ SubReplaces := by
  intro h
  obtain ⟨N, hN⟩ := h noTabs _ _ 3 (by
    intro c hc; simp only [List.mem_cons, List.not_mem_nil, or_false] at hc
    rcases hc with rfl | rfl | rfl | rfl | rfl <;> decide) gr_nest (by decide) (by decide)
  obtain ⟨p, hp, hs⟩ := hN (N + 60) (by omega)
  rw [show enc [40#32, 40#32, 97#32, 41#32, 41#32] = [40, 40, 97, 41, 41] from rfl, compile_nest] at hp
  cases hp
  obtain ⟨M, hM⟩ := hs (by decide) [97] ⟨[97#32], rfl, by intro c hc; simp at hc; subst hc; decide⟩ [[120], [121]] rfl
  obtain ⟨r, o, h1, -⟩ := hM (M + 60) (by omega)
  rw [show sub { code := [Inst.lbra 0, .lbra 1, .lbra 2, .byte 97, .rbra 2, .rbra 1, .rbra 0, .mtch 0].map encinst, nmatch := 3 }
    (M + 60) .fresh [97] [[120], [121]] = .ub from rfl] at h1
  cases h1

/-- The same happens when a repetition sets groups out of order: `(?:(a)|(b))*` on "ba". -/
example : (match (compile noTabs 60 [40, 63, 58, 40, 97, 41, 124, 40, 98, 41, 41, 42] >>= fun r => match r with
    | .ok p => sub p 60 .fresh [98, 97] [[120], [121]]
    | .error _ => .abort) with
  | .ub => true
  | _ => false) = true := by decide +kernel

/-- The program of the pattern `(a*?)`. -/
def lazyP : List Inst := [.lbra 0, .lbra 1, .fork 5 3, .byte 97, .jmp 2, .rbra 1, .rbra 0, .mtch 0]

theorem compile_lazy : compile noTabs 60 [40, 97, 42, 63, 41] = .ok (.ok { code := lazyP.map encinst, nmatch := 2 }) := by
  rfl

/-- With a thread too many in the count the machine does not stop on "b". -/
theorem lazy_spin (k : Nat) : run { code := lazyP.map encinst, nmatch := 2 } k { nthr := 1, tail := .nil } [98] true = .spin := by
  unfold run
  rw [if_neg (by decide)]
  match k with
  | 0 => rfl
  | k + 1 =>
    rw [outer, if_pos (by decide)]
    have h : inner (lazyP.map encinst) [98] true 20 (VM.mk [⟨0, List.replicate 16 (-1, -1)⟩] [] .nil [] none 2 0) =
      .ok (.next (VM.mk [] [] .nil [] none 1 0)) := by rfl
    have := settled (fun k => inner_mono (code := lazyP.map encinst) (str := [98]) (whole := true) k
      (VM.mk [⟨0, List.replicate 16 (-1, -1)⟩] [] .nil [] none 2 0)) h k
    rcases this with e | e
    · exact (congrArg (fun x => x >>= _) e).trans rfl
    · refine (congrArg (fun x => x >>= _) e).trans ?_
      exact outer_empty _ _ _ _ _ _ (by decide)

/-- A regex cannot always be used after `sub`: after `(a*?)` on "a" the count of threads is off by one, and the
next `exec` on "b" never ends. -/
theorem sub_reusable_violated : ¬ SubReusable := by
  intro h
  obtain ⟨k, x, hx⟩ := h noTabs 60 _ _ compile_lazy [97] [[120]] 60 (some [120]) { nthr := 1, tail := .nil } (by rfl) [98] ⟨60, (none, .fresh), by rfl⟩
  unfold iexec at hx
  rw [lazy_spin] at hx
  cases hx

/-- The program of `x*`. -/
def starP : List Inst := [.lbra 0, .fork 2 4, .byte 120, .jmp 1, .rbra 0, .mtch 0]

theorem compile_star : compile noTabs 60 [120, 42] = .ok (.ok { code := starP.map encinst, nmatch := 1 }) := by
  rfl

theorem star_loop (k n : Nat) (sb : List Byte) : suballloop { code := starP.map encinst, nmatch := 1 } k [97] [] n .fresh 0 sb = .spin := by
  induction n generalizing sb with
  | zero => rfl
  | succ n ih =>
    have h : ∃ vm, run { code := starP.map encinst, nmatch := 1 } 60 .fresh [97] false = .ok vm ∧ vm.best = some ⟨5, (0, 0) :: List.replicate 15 (-1, -1)⟩ ∧
      cleanup vm = .fresh := ⟨_, by rfl, by rfl, by rfl⟩
    obtain ⟨vm, h1, h2, h3⟩ := h
    rw [suballloop, if_pos (by decide), show slice [(97 : Byte)] 0 [(97 : Byte)].length = .ok [97] from rfl, Res.bind_ok]
    rcases settled (run_mono { code := starP.map encinst, nmatch := 1 } .fresh [97] false) h1 k with e | e
    · rw [e]; rfl
    · rw [e, Res.bind_ok, h2]
      dsimp only
      rw [show rdChk ((0, 0) :: List.replicate 15 (-1, -1)) 0 = .ok ((0 : Int), (0 : Int)) from rfl, Res.bind_ok, h3]
      exact ih _

/-- `suball` does not always end: `x*` on "a" matches the empty string at 0 again and again. -/
theorem suball_ends_violated : ¬ SuballEnds := by
  intro h
  obtain ⟨k, n, hk⟩ := h noTabs 60 _ _ compile_star [97] [] (by
    intro i
    match i with
    | 0 => exact ⟨60, _, by rfl⟩
    | i + 1 => rw [List.drop_eq_nil_of_le (by simp)]; exact ⟨60, _, by rfl⟩)
  exact hk (star_loop k n [])

/-- The loop of `dosubst` on groups that follow each other. -/
theorem substloop_ok {s : List Byte} {gs : Groups} : ∀ {ss : List (List Byte)} {off : Nat}, gs.length = ss.length → Spans off s.length gs →
    ∃ out off', substloop s gs ss off = .ok (out, ((off' : Nat) : Int)) ∧ off' ≤ s.length ∧ Edits gs ss off (s.drop off) (out ++ s.drop off') := by
  induction gs with
  | nil =>
    intro ss off hl h
    obtain rfl : ss = [] := List.length_eq_zero_iff.mp hl.symm
    exact ⟨[], off, rfl, h, .nil⟩
  | cons p gs ih =>
    intro ss off hl h
    cases ss with
    | nil => simp at hl
    | cons r ss =>
      have hl' : gs.length = ss.length := by simpa using hl
      rcases h with ⟨rfl, h⟩ | ⟨a, b, rfl, h1, h2, h3⟩
      · obtain ⟨out, off', e1, e2, e3⟩ := ih hl' h
        refine ⟨out, off', ?_, e2, .unset e3⟩
        rw [substloop, if_neg (by decide)]
        exact e1
      · have hb := h3.le
        obtain ⟨out, off', e1, e2, e3⟩ := ih hl' h3
        refine ⟨(s.take a).drop off ++ r ++ out, off', ?_, e2, ?_⟩
        · rw [substloop, if_pos (by simp only; omega)]
          simp only [Int.toNat_natCast]
          rw [slice_ok (by omega) (by omega)]
          simp only [Res.bind_ok]
          rw [show rdChk (r :: ss) 0 = .ok r from rfl]
          simp only [Res.bind_ok, List.drop_succ_cons, List.drop_zero]
          rw [e1]
          rfl
        · have e4 : s.drop off = (s.take a).drop off ++ (s.take b).drop a ++ s.drop b := by
            have x1 : s = s.take a ++ s.drop a := (List.take_append_drop a s).symm
            have x2 : s.drop a = (s.take b).drop a ++ s.drop b := by
              conv => lhs; rw [(List.take_append_drop b s).symm]
              rw [List.drop_append_of_le_length (by simp; omega)]
            conv => lhs; rw [x1]
            rw [List.drop_append_of_le_length (by simp; omega), x2, List.append_assoc]
          rw [e4, List.append_assoc ((s.take a).drop off ++ r)]
          exact .set _ _ (by simp; omega) (by simp; omega) e3

theorem dosubst_ok {s : List Byte} {mg : Groups} {n : Nat} {ss : List (List Byte)} (hl : ss.length + 1 = n) (hg : n ≤ mg.length)
    (h : Spans 0 s.length ((mg.take n).drop 1)) : ∃ out, dosubst n mg s ss = .ok out ∧ Edits ((mg.take n).drop 1) ss 0 s out := by
  obtain ⟨out, off', e1, e2, e3⟩ := substloop_ok (ss := ss) (by simp; omega) h
  refine ⟨out ++ s.drop off', ?_, by simpa using e3⟩
  unfold dosubst
  rw [show ((0 : Nat) : Int) = 0 from rfl] at e1
  rw [e1]
  simp only [Res.bind_ok, Int.toNat_natCast]
  rw [slice_suffix (by omega)]
  rfl

/-- C72 for `sub` and patterns without groups in groups or repetitions; limits as in `exec_decides_partial`.
Missing: the other patterns (`sub_replaces_violated`) and the state afterwards (`sub_reusable_violated`). -/
theorem sub_replaces_partial (tabs : List Byte → Option (List Rng)) {cs : List Char32} {t : Ast} {n : Nat} (hcs : CodePoints cs)
    (h : Gr .alt cs t 1 n) (hok : Ok (fun _ => true) t = true) (hn : n ≤ 16) (hf : flat t = true) :
    ∃ N, ∀ fuel, N ≤ fuel → ∃ p, compile tabs fuel (enc cs) = .ok (.ok p) ∧
      (p.code.length ≤ 2 ^ 30 → ∀ s, Bmp s → ∀ subst, subst.length + 1 = n → ∃ M, ∀ f, M ≤ f → ∃ r o, sub p f .fresh s subst = .ok (r, o) ∧
        ((r = none ∧ o = .fresh ∧ ∀ g, ¬ Matches s t 0 s.length g) ∨
          ∃ g new, r = some new ∧ Matches s t 0 s.length g ∧ Edits ((g.take n).drop 1) subst 0 s new)) := by
  obtain ⟨N, hN⟩ := run_gr tabs hcs h hok hn
  refine ⟨N, fun fuel hfu => ?_⟩
  obtain ⟨p, e1, e2, e3⟩ := hN fuel hfu
  refine ⟨p, e1, fun hl s hs subst hsub => ?_⟩
  obtain ⟨M, hM⟩ := e3 hl s true
  refine ⟨M, fun f hf' => ?_⟩
  obtain ⟨vm, h1, h2, h3, h4⟩ := hM f hf'
  unfold sub
  rw [if_neg (by rw [e2]; omega), h1]
  simp only [Res.bind_ok]
  rcases h3 (.inl hs) with ⟨hb, hno⟩ | ⟨u, jb, hb, hw, hT, -⟩
  · rw [hb]
    refine ⟨none, _, rfl, .inl ⟨rfl, ?_, fun g => hno _ _ (fun _ => rfl)⟩⟩
    rw [h2, h4 hb]
    rfl
  · rw [hb]
    have hj : jb = s.length := hw rfl
    subst hj
    have hnum := gr_num h
    obtain ⟨out, e4, e5⟩ := dosubst_ok (s := s) hsub (by have := (matches_groups hT (gr_caps h).2).2.1; omega)
      (matches_spans hT hnum.2 hf hnum.1 hn)
    simp only
    rw [e2, e4]
    exact ⟨_, _, rfl, .inr ⟨u.mg, out, rfl, hT, e5⟩⟩

/-- `SubAll t n subst s out`: from left to right, the longest match at a position is replaced, and a byte at which
there is none is kept. The rest of the text is taken as a text. -/
inductive SubAll (t : Ast) (n : Nat) (subst : List (List Byte)) : List Byte → List Byte → Prop where
  /-- the end -/
  | done : SubAll t n subst [] []
  /-- no match here -/
  | keep {b s out} : (∀ j g, ¬ Matches (b :: s) t 0 j g) → SubAll t n subst s out → SubAll t n subst (b :: s) (b :: out)
  /-- a match -/
  | edit {s j g new out} : Matches s t 0 j g → (∀ j' g', Matches s t 0 j' g' → j' ≤ j) → Edits ((g.take n).drop 1) subst 0 (s.take j) new →
      SubAll t n subst (s.drop j) out → SubAll t n subst s (new ++ out)

theorem suball_loop {p : Prog} {t : Ast} {n : Nat} (hn : p.nmatch = n) (h16 : n ≤ 16) (hnum : n = 1 + count t) (hnm : Num 1 t)
    (hf : flat t = true) (hnull : nullable t = false)
    (hrun : ∀ s whole, ∃ M, ∀ f, M ≤ f → ∃ vm, run p f .fresh s whole = .ok vm ∧ vm.tail = .nil ∧
        (End s → Answer s (fun j g => Matches s t 0 j g) whole vm.best) ∧ (vm.best = none → vm.nthr = 0))
    {s : List Byte} (hs : Bmp s) {subst : List (List Byte)} (hsub : subst.length + 1 = n) (k : Nat) : ∀ i, s.length - i < k → i ≤ s.length →
      ∃ M, ∀ f, M ≤ f → ∀ m sb, k ≤ m → ∃ out, suballloop p f s subst m .fresh i sb = .ok (sb ++ out) ∧ SubAll t n subst (s.drop i) out := by
  induction k with
  | zero => intro i h; omega
  | succ k ih =>
    intro i hk hile
    by_cases hi : i < s.length
    · obtain ⟨M1, h1⟩ := hrun (s.drop i) false
      have all : ∃ M2, ∀ i', i < i' → i' ≤ s.length → ∀ f, M2 ≤ f → ∀ m sb, k ≤ m →
          ∃ out, suballloop p f s subst m .fresh i' sb = .ok (sb ++ out) ∧ SubAll t n subst (s.drop i') out := by
        have : ∀ d, ∃ M2, ∀ i', i < i' → i' ≤ i + d → i' ≤ s.length → ∀ f, M2 ≤ f → ∀ m sb, k ≤ m →
            ∃ out, suballloop p f s subst m .fresh i' sb = .ok (sb ++ out) ∧ SubAll t n subst (s.drop i') out := by
          intro d
          induction d with
          | zero => exact ⟨0, fun i' h1 h2 => by omega⟩
          | succ d ihd =>
            obtain ⟨M3, h3⟩ := ihd
            by_cases hd : i + d + 1 ≤ s.length
            · obtain ⟨M4, h4⟩ := ih (i + d + 1) (by omega) hd
              refine ⟨max M3 M4, fun i' h5 h6 h7 f hf => ?_⟩
              by_cases he : i' = i + d + 1
              · subst he; exact h4 f (by omega)
              · exact h3 i' h5 (by omega) h7 f (by omega)
            · exact ⟨M3, fun i' h5 h6 h7 => h3 i' h5 (by omega) h7⟩
        obtain ⟨M2, h2⟩ := this s.length
        exact ⟨M2, fun i' h3 h4 => h2 i' h3 (by omega) h4⟩
      obtain ⟨M2, h2⟩ := all
      refine ⟨max M1 M2, fun f hfu m sb hm => ?_⟩
      obtain ⟨m, rfl⟩ : ∃ m', m = m' + 1 := ⟨m - 1, by omega⟩
      obtain ⟨vm, e1, e2, e3, e4⟩ := h1 f (by omega)
      have e3 := e3 (end_drop hs i)
      have hc : cleanup vm = .fresh := by simp only [cleanup, e2]; rfl
      rw [suballloop, if_pos hi, slice_suffix (by omega)]
      simp only [Res.bind_ok]
      rw [e1]
      simp only [Res.bind_ok]
      rw [hc]
      rcases e3 with ⟨hb, hno⟩ | ⟨u, jb, hb, -, hT, hmax⟩
      · rw [hb]
        simp only
        obtain ⟨b, hbi⟩ : ∃ b, s[i]? = some b := ⟨s[i], List.getElem?_eq_getElem hi⟩
        obtain ⟨out, e5, e6⟩ := h2 (i + 1) (by omega) (by omega) f (by omega) m (sb ++ [b]) (by omega)
        have hd : s.drop i = b :: s.drop (i + 1) := by
          rw [List.drop_eq_getElem_cons hi]
          rw [List.getElem?_eq_getElem hi] at hbi
          rw [Option.some.inj hbi]
        refine ⟨b :: out, ?_, ?_⟩
        · rw [show rdChk s i = .ok b by unfold rdChk; rw [hbi]]
          simp only [Res.bind_ok]
          rw [e5, List.append_assoc]
          rfl
        · rw [hd]
          refine .keep (fun j g => ?_) e6
          rw [← hd]
          exact hno j g (by simp [Want])
      · rw [hb]
        simp only
        obtain ⟨g1, g2, g3, g4⟩ := matches_groups hT (hnm.caps)
        have hpos : 0 < jb := by
          have hT' : Parse InRanges (s.drop i) (.cap 0 t) 0 .none jb u.mg := hT
          exact parse_gt hT' hnull
        have hle := parse_le hT (by omega)
        rw [List.length_drop] at hle
        have hr0 : rdChk u.mg 0 = .ok (((0 : Nat) : Int), (jb : Int)) := by unfold rdChk; rw [g3]
        rw [hr0]
        simp only [Res.bind_ok, Int.toNat_natCast]
        rw [slice_ok (by omega) (by omega)]
        simp only [Res.bind_ok]
        have ht : (s.take (jb + i)).drop i = (s.drop i).take jb := by
          rw [List.drop_take, Nat.add_sub_cancel]
        have hsp := matches_spans hT hnm hf hnum h16
        obtain ⟨new, e5, e6⟩ := dosubst_ok (s := (s.drop i).take jb) (mg := u.mg) hsub (by omega) (by
          rw [List.length_take, List.length_drop, Nat.min_eq_left hle]; exact hsp)
        rw [ht, hn, e5]
        simp only [Res.bind_ok]
        obtain ⟨out, e7, e8⟩ := h2 (i + jb) (by omega) (by omega) f (by omega) m (sb ++ new) (by omega)
        refine ⟨new ++ out, ?_, .edit hT (fun j' g' hm => hmax j' g' (by simp [Want]) hm) e6 (by rw [List.drop_drop]; exact e8)⟩
        rw [e7, List.append_assoc]
    · refine ⟨0, fun f _ m sb hm => ⟨[], ?_, ?_⟩⟩
      · obtain ⟨m, rfl⟩ : ∃ m', m = m' + 1 := ⟨m - 1, by omega⟩
        rw [suballloop, if_neg hi, List.append_nil]
      · rw [List.drop_eq_nil_of_le (by omega)]
        exact .done

/-- C72 for `suball` and patterns as in `sub_replaces_partial` that do not match the empty string. Missing: the
other patterns, for which see `suball_ends_violated`. -/
theorem suball_replaces_partial (tabs : List Byte → Option (List Rng)) {cs : List Char32} {t : Ast} {n : Nat} (hcs : CodePoints cs)
    (h : Gr .alt cs t 1 n) (hok : Ok (fun _ => true) t = true) (hn : n ≤ 16) (hf : flat t = true) (hnull : nullable t = false) :
    ∃ N, ∀ fuel, N ≤ fuel → ∃ p, compile tabs fuel (enc cs) = .ok (.ok p) ∧
      (p.code.length ≤ 2 ^ 30 → ∀ s, Bmp s → ∀ subst, subst.length + 1 = n →
        ∃ M, ∀ f, M ≤ f → ∀ m, M ≤ m → ∃ out, suball p f m .fresh s subst = .ok out ∧ SubAll t n subst s out) := by
  obtain ⟨N, hN⟩ := run_gr tabs hcs h hok hn
  refine ⟨N, fun fuel hfu => ?_⟩
  obtain ⟨p, e1, e2, e3⟩ := hN fuel hfu
  refine ⟨p, e1, fun hl s hs subst hsub => ?_⟩
  have hnum := gr_num h
  obtain ⟨M, hM⟩ := suball_loop e2 hn hnum.1 hnum.2 hf hnull (e3 hl) hs hsub (s.length + 1) 0 (by omega) (by omega)
  refine ⟨max M (s.length + 1), fun f hf' m hm => ?_⟩
  obtain ⟨out, h1, h2⟩ := hM f (by omega) m [] (by omega)
  refine ⟨out, ?_, h2⟩
  unfold suball
  rw [if_neg (by rw [e2]; omega), h1]
  rfl

/-- The pattern `(a)b(c)`, and `sub` of it. -/
example : flat (.cat (.cap 1 (.chr 97#32)) (.cat (.chr 98#32) (.cap 2 (.chr 99#32)))) = true ∧
    nullable (.cat (.cap 1 (.chr 97#32)) (.cat (.chr 98#32) (.cap 2 (.chr 99#32)))) = false ∧
    ∃ o, compile noTabs 60 [40, 97, 41, 98, 40, 99, 41] >>= (fun r => match r with
      | .ok p => sub p 60 .fresh [97, 98, 99] [[120, 120], []]
      | .error _ => .abort) = .ok (some [120, 120, 98], o) := ⟨rfl, rfl, _, rfl⟩

/-- The parts of "abc", replaced. -/
example : Edits [(0, 1), (2, 3)] [[120, 120], []] 0 [97, 98, 99] [120, 120, 98] :=
  .set (pre := []) (mid := [97]) (a := 0) (b := 1) rfl rfl (.set (pre := [98]) (mid := [99]) (a := 2) (b := 3) rfl rfl .nil)

/-- `suball` of `(a|ab)` on "abca". -/
example : compile noTabs 60 [40, 97, 124, 97, 98, 41] >>= (fun r => match r with
      | .ok p => suball p 60 60 .fresh [97, 98, 99, 97] [[120, 120]]
      | .error _ => .abort) = .ok [120, 120, 99, 120, 120] := rfl

end Verif.Regex
