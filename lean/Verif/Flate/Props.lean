import Verif.Flate.Back

/-!
# C27, C28, C81, C82: decompression
-/

namespace Verif.Flate

/-- The result, if there is one (for examples). -/
def FM.toOption {α : Type} : FM α → Option α
  | .ok (.ok a) => some a
  | _ => none

/-! ## C28: canonical codes -/

/-- Reading `n` symbols one after the other (uses `readcode` only). -/
def readAll (hc : Hufc) : Nat → In → FM (List Nat × In)
  | 0, i => FM.ret ([], i)
  | n + 1, i => do
    let p ← readcode i hc
    let q ← readAll hc n p.2
    FM.ret (p.1 :: q.1, q.2)

/-- The codes of the symbols, one after the other (specification). -/
inductive Codes (lens : List Nat) : List Nat → List Bool → Prop
  | nil : Codes lens [] []
  | cons {s ss b bs} : Code lens s b → Codes lens ss bs → Codes lens (s :: ss) (b ++ bs)

theorem readAll_ok (lens : List Nat) (hv : Valid lens) (hc : Hufc) (hf : hc.For lens) (ss : List Nat) (bs : List Bool)
    (h : Codes lens ss bs) (i : In) (hw : i.WF) (rest : List Bool) (hp : i.pend = bs ++ rest) :
    ∃ i', readAll hc ss.length i = FM.ret (ss, i') ∧ i'.pend = rest := by
  induction h generalizing i with
  | nil => exact ⟨i, rfl, hp⟩
  | cons hb _ ih =>
    rw [List.append_assoc] at hp
    obtain ⟨i₁, e1, e2, e3⟩ := readcode_ok hc lens hf hv i hw _ _ _ hb hp
    obtain ⟨i', f1, f2⟩ := ih i₁ e2 e3
    refine ⟨i', ?_, f2⟩
    rw [List.length_cons, readAll, e1, FM.bind_ret]
    dsimp only
    rw [f1]; rfl

/-- **C28.**  For code lengths that satisfy Kraft's inequality, complete or not, the tables decode
the canonical codes of RFC 1951: any string of codes at the front of the input is read as its
symbols, and exactly the bits of the codes are taken. -/
theorem huffman_decodes (lens : List Nat) (hv : Valid lens) (symbol : List Nat) (hs : lens.length ≤ symbol.length) :
    ∃ hc, mkhufc lens symbol = .ok hc ∧ ∀ ss bs, Codes lens ss bs → ∀ S rest, bitsOf S = bs ++ rest →
      ∃ i, readAll hc ss.length ⟨S, 0, 8⟩ = FM.ret (ss, i) ∧ i.pend = rest := by
  obtain ⟨hc, e1, e2⟩ := mkhufc_ok lens hv.1 symbol hs
  exact ⟨hc, e1, fun ss bs h S rest hp => readAll_ok lens hv hc e2 ss bs h _ (init_wf S).1 rest hp⟩

/-- **C28.**  Conversely, for any code lengths up to 15, even those of no prefix code, a symbol is
read only where its code stands; otherwise the result is an error. -/
theorem huffman_sound (lens : List Nat) (hb : ∀ l ∈ lens, l ≤ 15) (symbol : List Nat) (hs : lens.length ≤ symbol.length) :
    ∃ hc, mkhufc lens symbol = .ok hc ∧ ∀ S, (∃ e, readcode ⟨S, 0, 8⟩ hc = FM.err e) ∨
      ∃ s i b, readcode ⟨S, 0, 8⟩ hc = FM.ret (s, i) ∧ Code lens s b ∧ bitsOf S = b ++ i.pend := by
  obtain ⟨hc, e1, e2⟩ := mkhufc_ok lens hb symbol hs
  refine ⟨hc, e1, fun S => ?_⟩
  rcases readcode_back hc lens e2 ⟨S, 0, 8⟩ (init_wf S).1 with h | h | ⟨s, i', b, h1, _, h3, h4⟩
  · exact .inl ⟨_, h⟩
  · exact .inl ⟨_, h⟩
  · exact .inr ⟨s, i', b, h1, h3, h4⟩

/-- The lengths of the example in RFC 1951, section 3.2.2: `ABCDEFGH` with `F` the shortest. -/
example : Valid [3, 3, 3, 3, 3, 2, 4, 4] ∧
    Codes [3, 3, 3, 3, 3, 2, 4, 4] [5, 0, 7] [false, false, false, true, false, true, true, true, true] := by
  refine ⟨by unfold Valid; decide, ?_⟩
  exact .cons (b := [false, false]) ⟨2, rfl, by decide, rfl⟩ (.cons (b := [false, true, false]) ⟨3, rfl, by decide, rfl⟩
    (.cons (b := [true, true, true, true]) (bs := []) ⟨4, rfl, by decide, rfl⟩ .nil))

example : FM.toOption (do
              let hc ← FM.lift (mkhufc [3, 3, 3, 3, 3, 2, 4, 4] (List.replicate 8 0))
              let p ← readAll hc 3 ⟨[0b11101000, 0b00000001], 0, 8⟩
              FM.ret p.1 : FM (List Nat)) = some [5, 0, 7] := by decide +kernel

/-! ## C27: references into the output -/

/-- A literal byte or a reference (specification). -/
inductive Op where
  | lit (b : Byte)
  | copy (len dst : Nat)

/-- What they append (specification): a reference before the start of the output means nothing. -/
def meaning : List Op → List Byte → Option (List Byte)
  | [], out => some out
  | .lit b :: ops, out => meaning ops (out ++ [b])
  | .copy len dst :: ops, out => if dst ≤ out.length then meaning ops (copyBack dst len out) else none

/-- The code for them (uses `outb` and `copy` only). -/
def runOps : List Op → Win → FM Win
  | [], w => FM.ret w
  | .lit b :: ops, w => do
    let w ← outb w b
    runOps ops w
  | .copy len dst :: ops, w => do
    let w ← copy w len dst
    runOps ops w

/-- Distances of the format (specification). -/
def Op.InRange : Op → Prop
  | .lit _ => True
  | .copy _ dst => 1 ≤ dst ∧ dst ≤ 32768

theorem runOps_ok (ops : List Op) (hr : ∀ o ∈ ops, o.InRange) (w : Win) (hi : w.Inv) :
    (∀ out, meaning ops w.out = some out → ∃ w', runOps ops w = FM.ret w' ∧ w'.out = out) ∧
    (meaning ops w.out = none → runOps ops w = FM.err .format) := by
  induction ops generalizing w with
  | nil => exact ⟨fun out h => ⟨w, rfl, by simpa [meaning] using h⟩, fun h => by simp [meaning] at h⟩
  | cons o ops ih =>
    have hr' : ∀ o ∈ ops, o.InRange := fun o ho => hr o (List.mem_cons_of_mem _ ho)
    cases o with
    | lit b =>
      obtain ⟨w', e1, e2, e3⟩ := outb_ok w hi b
      rw [meaning, runOps, e1, FM.bind_ret, ← e3]
      exact ih hr' w' e2
    | copy len dst =>
      obtain ⟨h1, h2⟩ := hr (.copy len dst) (List.mem_cons_self ..)
      rw [meaning, runOps]
      by_cases h3 : dst ≤ w.out.length
      · obtain ⟨w', e1, e2, e3⟩ := copy_ok w hi len dst h1 h2 h3
        rw [if_pos h3, e1, FM.bind_ret, ← e3]
        exact ih hr' w' e2
      · rw [if_neg h3, copy_far w hi len dst (by omega)]
        exact ⟨fun out h => by simp at h, fun _ => rfl⟩

/-- **C27.**  After any literals and references whatever, with the window wrapping around as often
as it may, a reference appends the bytes from so far back; one before the start of the output is
an error. -/
theorem window_refines (ops : List Op) (hr : ∀ o ∈ ops, o.InRange) :
    (∀ out, meaning ops [] = some out → ∃ w, runOps ops ⟨[], 0, 0, List.replicate WinSz 0⟩ = FM.ret w ∧ w.out = out) ∧
    (meaning ops [] = none → runOps ops ⟨[], 0, 0, List.replicate WinSz 0⟩ = FM.err .format) :=
  runOps_ok ops hr _ init_inv

/-- **C27.**  What a reference means: what was there stays, and each byte appended is the one
`dst` places before it, be it itself appended. -/
theorem copyBack_means (dst len : Nat) (out : List Byte) (h1 : 1 ≤ dst) (h2 : dst ≤ out.length) :
    (copyBack dst len out).length = out.length + len ∧ out <+: copyBack dst len out ∧
      ∀ i, i < len → (copyBack dst len out)[out.length + i]? = (copyBack dst len out)[out.length + i - dst]? :=
  ⟨copyBack_length dst len out h1 h2, copyBack_prefix dst len out, fun i hi => copyBack_get dst len out h1 h2 i hi⟩

example : meaning [.lit 1, .lit 2, .copy 5 2, .lit 9, .copy 2 1] [] = some [1, 2, 1, 2, 1, 2, 1, 9, 9, 9] := by decide
example : meaning [.lit 1, .copy 5 2] [] = none := by decide
example : ∀ o ∈ [Op.lit 1, .lit 2, .copy 5 2, .lit 9, .copy 2 1], o.InRange := by
  intro o ho
  simp only [List.mem_cons, List.not_mem_nil, or_false] at ho
  rcases ho with rfl | rfl | rfl | rfl | rfl <;> simp [Op.InRange]

/-! ## C81: whole streams -/

/-- **C81.**  Every DEFLATE stream is decoded to its bytes, whatever the arrays held that are not
initialised, and the bits after it are left. -/
theorem decode_stream (J : Junk) (hJ : J.Sized) (S out : List Byte) (bs rest : List Bool) (h1 : bitsOf S = bs ++ rest)
    (h2 : Stream True 0 [] bs out) : ∃ i w, decode J S = FM.ret (i, w) ∧ w.out = out ∧ i.pend = rest := by
  have hl := bitsOf_length S
  obtain ⟨i, w, e1, _, _, e2, e3⟩ := decodeLoop_ok J hJ 0 [] bs out h2 (In.mk S 0 8).fuel (by
      rw [h1, List.length_append] at hl
      show bs.length ≤ 8 * S.length + 9
      omega) ⟨S, 0, 8⟩ (init_wf S).1 _ init_inv rfl rest h1 (by
      rw [(init_wf S).2]; omega)
  exact ⟨i, w, e1, e2, e3⟩

/-- **C81.**  The same without the bits. -/
theorem decode_deflate (J : Junk) (hJ : J.Sized) (S out : List Byte) (h : Deflates S out) :
    ∃ i w, decode J S = FM.ret (i, w) ∧ w.out = out := by
  obtain ⟨bs, rest, h1, h2⟩ := h
  obtain ⟨i, w, e1, e2, _⟩ := decode_stream J hJ S out bs rest h1 h2
  exact ⟨i, w, e1, e2⟩

/-- **C81.**  So a stream stands for one output only. -/
theorem deflates_unique (S out out' : List Byte) (h : Deflates S out) (h' : Deflates S out') : out = out' := by
  let J : Junk := ⟨List.replicate 320 0, List.replicate 288 0⟩
  have hJ : J.Sized := ⟨List.length_replicate, List.length_replicate⟩
  obtain ⟨i, w, e1, e2⟩ := decode_deflate J hJ S out h
  obtain ⟨i', w', f1, f2⟩ := decode_deflate J hJ S out' h'
  rw [e1] at f1
  have : (i, w) = (i', w') := Except.ok.inj (Res.ok.inj f1)
  rw [← e2, ← f2, (Prod.mk.inj this).2]

/-- `aaaa`: a literal and an overlapping reference in a block with fixed codes. -/
example : Deflates [0x4b, 0x04, 0x02, 0x00] [0x61, 0x61, 0x61, 0x61] := by
  refine ⟨[true, true, false, true, false, false, true, false, false, false, true, false, false, false, false, false, false, true,
    false, false, false, false, false, false, false, false, false, false, false, false], [false, false], by decide, ?_⟩
  refine Stream.last (ty := 1) (Block.fixed (Items.lit (c := 0x61) (b := msb 8 0x91) ⟨8, by decide +kernel, by decide, by decide +kernel⟩ ?_))
  exact Items.copy (b := msb 7 1) (d := msb 5 0) (bs := msb 7 0) (i := 0) (j := 0) (base := 3) (e := 0) (x := 0) (base' := 1)
    (e' := 0) (y := 0) rfl rfl (by decide) (by decide) ⟨7, by decide +kernel, by decide, by decide +kernel⟩
    ⟨5, by decide +kernel, by decide, by decide +kernel⟩ (by decide)
    (Items.stop ⟨7, by decide +kernel, by decide, by decide +kernel⟩)

/-- A stored block. -/
example : Deflates [0x01, 0x02, 0x00, 0xfd, 0xff, 0x68, 0x69] [0x68, 0x69] :=
  ⟨bitsOf [0x01, 0x02, 0x00, 0xfd, 0xff, 0x68, 0x69], [], by simp,
    Stream.last (ty := 0) (Block.stored (pad := [false, false, false, false, false]) (data := [0x68, 0x69]) rfl (by decide))⟩

/-- A block with codes of its own, with runs of zeros among the code lengths, and no output. -/
example : Deflates [5, 192, 129, 0, 0, 0, 0, 0, 144, 255, 107, 0] [] := by
  refine ⟨(bitsOf [5, 192, 129, 0, 0, 0, 0, 0, 144, 255, 107, 0]).take 90, List.replicate 6 false, by decide +kernel, ?_⟩
  have hB := Block.dynamic (strict := True) (p := 3) (out := []) (out' := []) (ll := List.replicate 256 0 ++ [1]) (dl := [1])
    (cl := [0, 1, 0, 0, 0, 0, 0, 0, 0, 0, 0, 0, 0, 0, 0, 0, 0, 0, 1]) (ncode := 18)
    (lb := [true] ++ lsb 7 127 ++ ([true] ++ lsb 7 107 ++ ([false] ++ ([false] ++ [])))) (bs := [false])
    (by decide +kernel) (by decide +kernel) (by decide) (by decide) (by decide) (by decide) rfl (by decide) (by decide)
    (fun _ => by unfold Valid; decide +kernel) (by decide +kernel)
    (Lens.zeros' (by decide) ⟨1, rfl, by decide, rfl⟩ (Lens.zeros' (by decide) ⟨1, rfl, by decide, rfl⟩
      (Lens.len (s := 1) (by decide) ⟨1, rfl, by decide, rfl⟩ (Lens.len (s := 1) (by decide) ⟨1, rfl, by decide, rfl⟩
        (by
          have : [] ++ List.replicate (11 + 127) 0 ++ List.replicate (11 + 107) 0 ++ [1] ++ [1] = List.replicate 256 0 ++ [1] ++ [1] := by
            decide +kernel
          rw [this]
          exact Lens.done (by decide +kernel))))))
    (Items.stop ⟨1, by decide +kernel, by decide, by decide +kernel⟩)
  have h := Stream.last hB
  have e : (bitsOf [5, 192, 129, 0, 0, 0, 0, 0, 144, 255, 107, 0]).take 90 = _ := (by decide +kernel : _ = true :: lsb 2 2 ++
    (lsb 5 ((List.replicate 256 0 ++ [1]).length - 257) ++ lsb 5 ([1].length - 1) ++ lsb 4 (18 - 4) ++
      (clOrder.take 18).flatMap (fun k => lsb 3 ([0, 1, 0, 0, 0, 0, 0, 0, 0, 0, 0, 0, 0, 0, 0, 0, 0, 0, 1].getD k 0)) ++
      ([true] ++ lsb 7 127 ++ ([true] ++ lsb 7 107 ++ ([false] ++ ([false] ++ [])))) ++ [false]))
  rw [e]
  exact h

/-! ## C82: other input -/

/-- The full claim of C82, first half: no input stops the program. -/
def NoAbort : Prop := ∀ J : Junk, J.Sized → ∀ S, decode J S ≠ FM.abort

/-- The full claim of C82, second half: what is accepted is a DEFLATE stream of the output. -/
def OnlyDeflate : Prop := ∀ J : Junk, J.Sized → ∀ S i w, decode J S = FM.ret (i, w) → Deflates S w.out

/-- **C82 (violated).**  Two bytes stop the program: a block with fixed codes and the length symbol
286, which does not exist, but has a code. -/
theorem abort_violated : (∀ J : Junk, decode J [0x1b, 0x03] = FM.abort) ∧ ¬ NoAbort := by
  have key : ∀ J : Junk, decode J [0x1b, 0x03] = FM.abort := by
    intro J
    obtain ⟨hw, hp⟩ := init_wf [0x1b, 0x03]
    have hp' : In.pend ⟨[0x1b, 0x03], 0, 8⟩ = lsb 1 1 ++ (lsb 2 1 ++ (msb 8 198 ++ [false, false, false, false, false])) := by
      rw [hp]; decide
    obtain ⟨i₁, e1, e2, e3⟩ := bits_lsb _ hw 1 1 (by omega) (by decide) _ hp'
    obtain ⟨i₂, f1, f2, f3⟩ := bits_lsb _ e2 2 1 (by omega) (by decide) _ e3
    obtain ⟨hl, m1, m2⟩ := mkhufc_ok fixedLL fixedLL_valid.1 (List.replicate MaxLenSyms 0) (by decide +kernel)
    obtain ⟨hd, n1, _⟩ := mkhufc_ok fixedDL fixedDL_valid.1 (List.replicate MaxLenSyms 0) (by decide +kernel)
    obtain ⟨i₃, g1, _, _⟩ := readcode_ok hl fixedLL m2 fixedLL_valid i₂ f2 286 (msb 8 198) _
      ⟨8, by decide +kernel, by decide, by decide +kernel⟩ f3
    have hfix : ∀ w, fixed i₂ w = FM.abort := by
      intro w
      rw [fixed, fixedlen_eq, fixeddst_eq, m1, n1]
      simp only [FM.lift_ok, FM.bind_ret]
      rw [In.fuel, decomp, g1, FM.bind_ret]
      dsimp only
      rw [if_neg (by decide), if_pos (by decide), reference]
      rfl
    rw [decode, In.fuel, decodeLoop, e1, FM.bind_ret]
    dsimp only
    rw [f1, FM.bind_ret]
    dsimp only
    rw [block, if_neg (by decide), if_pos rfl, hfix]
    rfl
  exact ⟨key, fun h => h ⟨List.replicate 320 0, List.replicate 288 0⟩ ⟨List.length_replicate, List.length_replicate⟩ _ (key _)⟩

/-- A stream with three code lengths 1, 1 and 7 for the code lengths (test data). -/
def over : List Byte := [5, 192, 129, 0, 0, 0, 0, 192, 145, 255, 107, 0]

theorem lsb_inj (n x y : Nat) (hx : x < 2 ^ n) (hy : y < 2 ^ n) (h : lsb n x = lsb n y) : x = y := by
  have := congrArg num h
  rwa [num_lsb, num_lsb, Nat.mod_eq_of_lt hx, Nat.mod_eq_of_lt hy] at this

theorem lsb_pop {n x y : Nat} {a b : List Bool} (hx : x < 2 ^ n) (hy : y < 2 ^ n) (h : lsb n x ++ a = lsb n y ++ b) :
    x = y ∧ a = b := by
  obtain ⟨h1, h2⟩ := List.append_inj h (by rw [lsb_length, lsb_length])
  exact ⟨lsb_inj n x y hx hy h1, h2⟩

theorem over_not (out : List Byte) : ¬ Deflates over out := by
  rintro ⟨bs, rest, h1, h2⟩
  have hover : bitsOf over = true :: (lsb 2 2 ++ (lsb 5 0 ++ (lsb 5 0 ++ (lsb 4 14 ++
      (([0, 0, 1, 0, 0, 0, 0, 0, 0, 0, 0, 0, 0, 0, 0, 7, 0, 1] : List Nat).flatMap (lsb 3) ++ (bitsOf over).drop 71))))) := by
    decide +kernel
  rw [hover] at h1
  have hb : ∀ p ty out bs' out' tail, Block True p ty out bs' out' → lsb 2 ty ++ (bs' ++ tail) =
      lsb 2 2 ++ (lsb 5 0 ++ (lsb 5 0 ++ (lsb 4 14 ++
      (([0, 0, 1, 0, 0, 0, 0, 0, 0, 0, 0, 0, 0, 0, 0, 7, 0, 1] : List Nat).flatMap (lsb 3) ++ (bitsOf over).drop 71)))) → False := by
    intro p ty out bs' out' tail hB he0
    have hty : ty < 2 ^ 2 := by cases hB <;> omega
    obtain ⟨rfl, he⟩ := lsb_pop hty (by decide) he0
    clear he0
    cases hB with
    | @dynamic _ _ ll dl cl ncode lb bs a1 a2 a3 a4 a5 a6 a7 a8 a9 v b1 b2 b3 =>
      simp only [List.append_assoc] at he
      obtain ⟨_, he⟩ := lsb_pop (by omega) (by decide) he
      obtain ⟨_, he⟩ := lsb_pop (by omega) (by decide) he
      obtain ⟨hn, he⟩ := lsb_pop (by omega) (by decide) he
      obtain rfl : ncode = 18 := by omega
      have h8 : ∀ k, cl.getD k 0 < 2 ^ 3 := by
        intro k
        rw [List.getD_eq_getElem?_getD]
        cases hk : cl[k]? with
        | none => simp
        | some v => simpa using a8 v (List.mem_of_getElem? hk)
      have h15 : cl.getD 15 0 = 0 := by
        rw [List.getD_eq_getElem?_getD, a9 15 (by decide)]; rfl
      simp only [clOrder, List.take_succ_cons, List.take_zero, List.flatMap_cons, List.flatMap_nil, List.append_assoc] at he
      obtain ⟨c16, he⟩ := lsb_pop (h8 _) (by decide) he
      obtain ⟨c17, he⟩ := lsb_pop (h8 _) (by decide) he
      obtain ⟨c18, he⟩ := lsb_pop (h8 _) (by decide) he
      obtain ⟨c0, he⟩ := lsb_pop (h8 _) (by decide) he
      obtain ⟨c8, he⟩ := lsb_pop (h8 _) (by decide) he
      obtain ⟨c7, he⟩ := lsb_pop (h8 _) (by decide) he
      obtain ⟨c9, he⟩ := lsb_pop (h8 _) (by decide) he
      obtain ⟨c6, he⟩ := lsb_pop (h8 _) (by decide) he
      obtain ⟨c10, he⟩ := lsb_pop (h8 _) (by decide) he
      obtain ⟨c5, he⟩ := lsb_pop (h8 _) (by decide) he
      obtain ⟨c11, he⟩ := lsb_pop (h8 _) (by decide) he
      obtain ⟨c4, he⟩ := lsb_pop (h8 _) (by decide) he
      obtain ⟨c12, he⟩ := lsb_pop (h8 _) (by decide) he
      obtain ⟨c3, he⟩ := lsb_pop (h8 _) (by decide) he
      obtain ⟨c13, he⟩ := lsb_pop (h8 _) (by decide) he
      obtain ⟨c2, he⟩ := lsb_pop (h8 _) (by decide) he
      obtain ⟨c14, he⟩ := lsb_pop (h8 _) (by decide) he
      obtain ⟨c1, he⟩ := lsb_pop (h8 _) (by decide) he
      have hcl : cl = [0, 1, 7, 0, 0, 0, 0, 0, 0, 0, 0, 0, 0, 0, 0, 0, 0, 0, 1] := by
        apply List.ext_getElem?
        intro k
        by_cases hk : k < 19
        · have hg : cl[k]? = some (cl.getD k 0) := by
            rw [List.getD_eq_getElem?_getD, List.getElem?_eq_getElem (by omega)]; rfl
          rw [hg]
          rcases (by omega : k = 0 ∨ k = 1 ∨ k = 2 ∨ k = 3 ∨ k = 4 ∨ k = 5 ∨ k = 6 ∨ k = 7 ∨ k = 8 ∨ k = 9 ∨ k = 10 ∨ k = 11 ∨
            k = 12 ∨ k = 13 ∨ k = 14 ∨ k = 15 ∨ k = 16 ∨ k = 17 ∨ k = 18) with
            rfl | rfl | rfl | rfl | rfl | rfl | rfl | rfl | rfl | rfl | rfl | rfl | rfl | rfl | rfl | rfl | rfl | rfl | rfl
          · rw [c0]; rfl
          · rw [c1]; rfl
          · rw [c2]; rfl
          · rw [c3]; rfl
          · rw [c4]; rfl
          · rw [c5]; rfl
          · rw [c6]; rfl
          · rw [c7]; rfl
          · rw [c8]; rfl
          · rw [c9]; rfl
          · rw [c10]; rfl
          · rw [c11]; rfl
          · rw [c12]; rfl
          · rw [c13]; rfl
          · rw [c14]; rfl
          · rw [h15]; rfl
          · rw [c16]; rfl
          · rw [c17]; rfl
          · rw [c18]; rfl
        · rw [List.getElem?_eq_none (by omega), List.getElem?_eq_none (by show 19 ≤ k; omega)]
      rw [hcl] at v
      exact absurd (v trivial).1.2 (by decide)
  cases h2 with
  | @last _ ty _ bs out' hB =>
    rw [List.cons_append, List.cons_append, List.cons.injEq, List.append_assoc] at h1
    exact hb _ _ _ _ _ _ hB h1.2.symm
  | @more _ ty _ bs out₁ rest' out' hB hS =>
    simp at h1

/-- **C82 (violated).**  A stream is accepted the code lengths of which are those of no prefix
code, so that it stands for no output at all. -/
theorem accept_violated : (∀ out, ¬ Deflates over out) ∧ ¬ OnlyDeflate := by
  refine ⟨over_not, fun h => ?_⟩
  have hr : (decode ⟨List.replicate 320 0, List.replicate 288 0⟩ over).toOption.isSome = true := by decide +kernel
  cases hd : decode ⟨List.replicate 320 0, List.replicate 288 0⟩ over with
  | ok r =>
    cases r with
    | ok r => exact over_not _ (h _ ⟨List.length_replicate, List.length_replicate⟩ over r.1 r.2 hd)
    | error e => rw [hd] at hr; simp [FM.toOption] at hr
  | abort => rw [hd] at hr; simp [FM.toOption] at hr
  | ub => rw [hd] at hr; simp [FM.toOption] at hr
  | spin => rw [hd] at hr; simp [FM.toOption] at hr

/-- **C82, partial.**  Whatever the bytes, decoding comes to an end.  What is accepted follows the
format but for code lengths that may be those of no prefix code; and only a block with fixed codes
can stop the program.  Missing: `NoAbort` and `OnlyDeflate`, which are false. -/
theorem decode_partial (J : Junk) (hJ : J.Sized) (S : List Byte) :
    (∃ i w bs, decode J S = FM.ret (i, w) ∧ Stream False 0 [] bs w.out ∧ bitsOf S = bs ++ i.pend) ∨
    (∃ e, decode J S = FM.err e) ∨
    (decode J S = FM.abort ∧ ∃ bs out b rest, Blocks False 0 [] bs out ∧ bitsOf S = bs ++ b :: lsb 2 1 ++ rest) := by
  obtain ⟨hw, hp⟩ := init_wf S
  have hl := bitsOf_length S
  have h := decodeLoop_good (A := ∃ bs out b rest, Blocks False 0 [] bs out ∧ bitsOf S = bs ++ b :: lsb 2 1 ++ rest) J hJ
    (In.mk S 0 8).fuel 0 ⟨S, 0, 8⟩ hw _ init_inv (pend_lt_fuel _ hw) (by rw [hp]; omega)
    (fun bs out b rest h1 h2 => ⟨bs, out, b, rest, h1, h2⟩)
  rcases h.cases with ⟨⟨i, w⟩, e1, _, _, bs, e2, e3⟩ | h | h
  · exact .inl ⟨i, w, bs, e1, e2, e3⟩
  · exact .inr (.inl h)
  · exact .inr (.inr h)

end Verif.Flate
