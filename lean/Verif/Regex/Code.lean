import Verif.Regex.Trie

/-! # The code of a tree, and what it accepts -/

namespace Verif.Regex
open Verif.Utf

/-- `q` stands in `P` at `a`. -/
def At (P : List Inst) (a : Nat) (q : List Inst) : Prop := ∀ k, k < q.length → P[a + k]? = q[k]?

theorem At.cons {P : List Inst} {a : Nat} {x : Inst} {q : List Inst} (h : At P a (x :: q)) :
    P[a]? = some x ∧ At P (a + 1) q := by
  constructor
  · have := h 0 (by simp)
    simpa using this
  · intro k hk
    have := h (k + 1) (by simp; omega)
    rw [show a + 1 + k = a + (k + 1) by omega, this]
    simp

theorem At.append {P : List Inst} {a : Nat} {p q : List Inst} (h : At P a (p ++ q)) : At P a p ∧ At P (a + p.length) q := by
  constructor
  · intro k hk
    rw [h k (by simp; omega), List.getElem?_append_left hk]
  · intro k hk
    rw [show a + p.length + k = a + (p.length + k) by omega, h (p.length + k) (by simp; omega),
      List.getElem?_append_right (by omega)]
    congr 1
    omega

/-- Code of the children of a trie node, ending at `e`. -/
inductive RC (e : Nat) : List (Byte × Byte × Trie) → Nat → List Inst → Prop where
  | leaf {x y t a} : t.ch = [] → t.fin = true → RC e [(x, y, t)] a [.range x y, .jmp e]
  | inner {x y t a q} : t.ch ≠ [] → t.fin = false → RC e t.ch (a + 1) q → RC e [(x, y, t)] a (.range x y :: q)
  | split {c1 c2 a q1 q2} : c1 ≠ [] → c2 ≠ [] → RC e c1 (a + 1) q1 → RC e c2 (a + 1 + q1.length) q2 →
      RC e (c1 ++ c2) a (.fork (a + 1) (a + 1 + q1.length) :: (q1 ++ q2))

/-- The number of instructions for a list of children. -/
def csize (ch : List (Byte × Byte × Trie)) : Nat := if ch.length = 0 then 0 else 2 * ch.length - 1 + sizes ch

theorem sizes_append (a b : List (Byte × Byte × Trie)) : sizes (a ++ b) = sizes a + sizes b := by
  induction a with
  | nil => simp [sizes]
  | cons c a ih =>
    obtain ⟨x, y, t⟩ := c
    simp only [List.cons_append, sizes, ih]
    omega

theorem progsize (t : Trie) : rangeprogsize t = csize t.ch + if t.fin = true then 1 else 0 := by
  cases t with
  | node ch fin => cases fin <;> simp [rangeprogsize, csize, Trie.ch, Trie.fin]

theorem set_mid (p : List Inst) (x v : Inst) (r : List Inst) : wrChk (p ++ x :: r) p.length v = .ok (p ++ v :: r) := by
  rw [wrChk_ok _ (by simp)]
  simp

theorem set_mid' (p : List Inst) (x v : Inst) (r : List Inst) (n : Nat) (h : n = p.length) :
    wrChk (p ++ x :: r) n v = .ok (p ++ v :: r) := by
  rw [h, set_mid]

theorem rangegen_ok (e : Nat) (fuel : Nat) : ∀ (ch : List (Byte × Byte × Trie)) (p : List Inst), ch ≠ [] →
    (∀ c ∈ ch, ∃ d, Unif d c.2.2) → csize ch < fuel →
    ∃ q, rangegen e fuel ch p = .ok (p ++ q) ∧ RC e ch p.length q ∧ q.length = csize ch := by
  induction fuel with
  | zero => intro ch p _ _ h; omega
  | succ fuel ih =>
    intro ch p hne hu hf
    match ch, hne with
    | [(x, y, t)], _ =>
      obtain ⟨d, hd⟩ := hu (x, y, t) (by simp)
      simp only at hd
      simp only [rangegen, rangehead, append]
      have hcs : csize [(x, y, t)] = 1 + rangeprogsize t := by simp [csize, sizes]
      cases d with
      | zero =>
        obtain ⟨h1, h2⟩ := hd
        rw [h1, if_pos h2, if_neg (by simp)]
        rw [hcs, progsize, h1, h2] at hf ⊢
        cases fuel with
        | zero => simp [csize] at hf
        | succ fuel =>
          refine ⟨[.range x y, .jmp e], by simp [rangegen], .leaf h1 h2, by simp [csize]⟩
      | succ d =>
        obtain ⟨h1, h2, h3⟩ := hd
        rw [if_neg (by simp [h2])]
        rw [hcs, progsize, h2] at hf ⊢
        simp only [Bool.false_eq_true, ↓reduceIte, Nat.add_zero] at hf ⊢
        obtain ⟨q, e1, e2, e3⟩ := ih t.ch (p ++ [.range x y]) h1 (fun c hc => ⟨d, h3 c hc⟩) (by omega)
        refine ⟨.range x y :: q, by rw [e1]; simp, .inner h1 h2 (by simpa using e2), by simp [e3]; omega⟩
    | c1 :: c2 :: ch, _ =>
      obtain ⟨L, hL⟩ : ∃ L, L = c1 :: c2 :: ch := ⟨_, rfl⟩
      have hlen : 2 ≤ L.length := by simp [hL]
      have hLd : L.take (L.length / 2) ++ L.drop (L.length / 2) = L := List.take_append_drop _ _
      obtain ⟨A, hA⟩ : ∃ A, A = L.take (L.length / 2) := ⟨_, rfl⟩
      obtain ⟨B, hB⟩ : ∃ B, B = L.drop (L.length / 2) := ⟨_, rfl⟩
      have hAl : A.length = L.length / 2 := by rw [hA]; simp; omega
      have hBl : B.length = L.length - L.length / 2 := by rw [hB]; simp
      rw [← hA, ← hB] at hLd
      have hA0 : A ≠ [] := by intro h; rw [h] at hAl; simp at hAl; omega
      have hB0 : B ≠ [] := by intro h; rw [h] at hBl; simp at hBl; omega
      have hs : csize L = csize A + csize B + 1 := by
        unfold csize
        rw [if_neg (by omega), if_neg (by omega), if_neg (by omega), hAl, hBl, ← hLd, sizes_append]
        rw [hLd]
        omega
      rw [← hL] at hf hu
      obtain ⟨q1, e1, r1, l1⟩ := ih A (p ++ [.fork hole hole]) hA0 (fun c hc => hu c (by rw [← hLd]; simp [hc])) (by omega)
      obtain ⟨q2, e2, r2, l2⟩ := ih B (p ++ [.fork hole hole] ++ q1) hB0 (fun c hc => hu c (by rw [← hLd]; simp [hc])) (by omega)
      have hgen : rangegen e (fuel + 1) (c1 :: c2 :: ch) p = (do
          let p2 ← rangegen e fuel A (p ++ [.fork hole hole])
          let p3 ← rangegen e fuel B p2
          wrChk p3 p.length (.fork (p ++ [Inst.fork hole hole]).length p2.length)) := by
        rw [hA, hB, hL]
        rw [rangegen.eq_def]
        simp only [append]
      rw [hgen, e1, Res.bind_ok, e2, Res.bind_ok, List.append_assoc, List.append_assoc, List.singleton_append, set_mid]
      refine ⟨.fork (p.length + 1) (p.length + 1 + q1.length) :: (q1 ++ q2), ?_, ?_, ?_⟩
      · simp [Nat.add_comm, Nat.add_left_comm]
      · rw [← hL, ← hLd]
        refine .split hA0 hB0 (by simpa using r1) ?_
        have : (p ++ [Inst.fork hole hole] ++ q1).length = p.length + 1 + q1.length := by simp; omega
        rw [this] at r2
        exact r2
      · rw [← hL, hs]; simp; omega

/-- The code of a repetition. -/
def starCode (a : Nat) (r : Bool) (q : List Inst) : List Inst :=
  (if r then .fork (a + 1 + q.length + 1) (a + 1) else .fork (a + 1) (a + 1 + q.length + 1)) :: (q ++ [.jmp a])

/-- `q` is code of `t` to be placed at `a`. -/
def Body : Ast → Nat → List Inst → Prop
  | .chr c, _, q => q = (utf8 c.toNat).map .byte
  | .ranges rl, a, q => ∃ t, insertall rl Trie.empty = .ok t ∧ Top t ∧ (∀ bs, TL bs t ↔ BoxCls rl bs) ∧ RC (a + q.length) t.ch a q
  | .cat x y, a, q => ∃ q1 q2, Body x a q1 ∧ Body y (a + q1.length) q2 ∧ q = q1 ++ q2
  | .alt x y, a, q => ∃ q1 q2, Body x (a + 1) q1 ∧ Body y (a + 1 + q1.length + 1) q2 ∧
      q = .fork (a + 1) (a + 1 + q1.length + 1) :: (q1 ++ .jmp (a + 1 + q1.length + 1 + q2.length) :: q2)
  | .star x r, a, q => ∃ q1, Body x (a + 1) q1 ∧ q = starCode a r q1
  | .plus x r, a, q => ∃ q0 q1, Body x a q0 ∧ Body x (a + q0.length + 1) q1 ∧ q = q0 ++ starCode (a + q0.length) r q1
  | .quest x, a, q => ∃ q1, Body x (a + 1) q1 ∧ q = .fork (a + 1) (a + 1 + q1.length) :: q1
  | .cap m x, a, q => ∃ q1, Body x (a + 1) q1 ∧ q = .lbra m :: (q1 ++ [.rbra m])
  | .bol, _, q => q = [.bol]
  | .eol, _, q => q = [.eol]
  | .bow, _, _ => False
  | .eow, _, _ => False

theorem genchar_ok (p : List Inst) (c : Char32) (h : okChr c = true) :
    genchar p c = .ok (p ++ (utf8 c.toNat).map .byte) := by
  simp only [okChr, decide_eq_true_eq] at h
  have h1 := (encode_utf8 c.toNat (by omega) (List.replicate 4 0#8)).2
  rw [Utf.ofNat_toNat, if_pos (by simpa using utf8_le4 c.toNat)] at h1
  have hl : (utf8 c.toNat).length < 4 := by
    unfold utf8; (repeat' split) <;> first | omega | simp
  unfold genchar
  rw [h1]
  simp only [Res.bind_ok]
  rw [if_pos ⟨by have := utf8_pos c.toNat; omega, by omega⟩]
  simp only [Res.pure_eq, Int.toNat_natCast, List.take_left']

theorem genstar_ok (g : List Inst → Res (List Inst)) (r : Bool) (p q : List Inst)
    (h : g (p ++ [.fork hole hole]) = .ok (p ++ [.fork hole hole] ++ q)) : genstar g r p = .ok (p ++ starCode p.length r q) := by
  unfold genstar
  simp only [append, h, Res.bind_ok]
  rw [show p ++ [Inst.fork hole hole] ++ q ++ [.jmp hole] = p ++ Inst.fork hole hole :: (q ++ [.jmp hole]) by simp,
    set_mid, Res.bind_ok, ← List.cons_append, ← List.append_assoc, set_mid' _ _ _ _ _ (by simp only [List.length_append, List.length_cons, List.length_nil]; omega)]
  congr 1
  simp only [starCode, List.append_assoc, List.length_append, List.length_cons, List.length_nil, Nat.zero_add,
    List.cons_append]
  congr 1
  congr 1
  cases r <;> simp <;> omega

theorem gen_ok (t : Ast) : Ok validRng t = true → ∃ N, ∀ fuel, N ≤ fuel → ∀ p,
    ∃ q, gen fuel t p = .ok (p ++ q) ∧ Body t p.length q := by
  induction t with
  | chr c =>
    intro h
    exact ⟨0, fun fuel _ p => ⟨_, genchar_ok p c h, rfl⟩⟩
  | bol => intro h; exact ⟨0, fun fuel _ p => ⟨_, rfl, rfl⟩⟩
  | eol => intro h; exact ⟨0, fun fuel _ p => ⟨_, rfl, rfl⟩⟩
  | bow => intro h; simp [Ok] at h
  | eow => intro h; simp [Ok] at h
  | ranges rl =>
    intro h
    simp only [Ok, Bool.and_eq_true, Bool.not_eq_true', List.isEmpty_eq_false_iff] at h
    obtain ⟨t, e, ht, hc, hL⟩ := trie_spec rl h.1 h.2
    refine ⟨csize t.ch + 1, ?_⟩
    intro fuel hf p
    obtain ⟨q, e1, e2, e3⟩ := rangegen_ok (rangeprogsize t + p.length) fuel t.ch p hc (fun c hc => ⟨_, ht.2 c hc⟩) (by omega)
    refine ⟨q, by simp only [gen, genranges, e, Res.bind_ok, e1], t, e, ht, hL, ?_⟩
    rw [progsize, ht.1] at e2
    simp only [Bool.false_eq_true, ↓reduceIte, Nat.add_zero] at e2
    rw [e3, Nat.add_comm]
    exact e2
  | cat a b iha ihb =>
    intro h
    simp only [Ok, Bool.and_eq_true] at h
    obtain ⟨N1, h1⟩ := iha h.1
    obtain ⟨N2, h2⟩ := ihb h.2
    refine ⟨max N1 N2, fun fuel hf p => ?_⟩
    obtain ⟨q1, e1, b1⟩ := h1 fuel (by omega) p
    obtain ⟨q2, e2, b2⟩ := h2 fuel (by omega) (p ++ q1)
    refine ⟨q1 ++ q2, by simp only [gen, e1, Res.bind_ok, e2, List.append_assoc], q1, q2, b1, by simpa using b2, rfl⟩
  | alt a b iha ihb =>
    intro h
    simp only [Ok, Bool.and_eq_true] at h
    obtain ⟨N1, h1⟩ := iha h.1
    obtain ⟨N2, h2⟩ := ihb h.2
    refine ⟨max N1 N2, fun fuel hf p => ?_⟩
    obtain ⟨q1, e1, b1⟩ := h1 fuel (by omega) (p ++ [.fork hole hole])
    obtain ⟨q2, e2, b2⟩ := h2 fuel (by omega) (p ++ [.fork hole hole] ++ q1 ++ [.jmp hole])
    refine ⟨_, ?_, q1, q2, by simpa using b1, ?_, rfl⟩
    · simp only [gen, genalt, append, e1, Res.bind_ok, e2]
      rw [show p ++ [Inst.fork hole hole] ++ q1 ++ [.jmp hole] ++ q2 = p ++ Inst.fork hole hole :: (q1 ++ .jmp hole :: q2) by simp,
        set_mid, Res.bind_ok, ← List.cons_append, ← List.append_assoc, set_mid' _ _ _ _ _ (by simp only [List.length_append, List.length_cons, List.length_nil]; omega)]
      simp [Nat.add_comm, Nat.add_left_comm]
    · have : (p ++ [Inst.fork hole hole] ++ q1 ++ [Inst.jmp hole]).length = p.length + 1 + q1.length + 1 := by simp; omega
      rw [this] at b2
      exact b2
  | star a r ih =>
    intro h
    simp only [Ok, Bool.and_eq_true] at h
    obtain ⟨N1, h1⟩ := ih h.1
    refine ⟨N1, fun fuel hf p => ?_⟩
    obtain ⟨q1, e1, b1⟩ := h1 fuel hf (p ++ [.fork hole hole])
    exact ⟨_, by simp only [gen]; exact genstar_ok _ r p q1 e1, q1, by simpa using b1, rfl⟩
  | plus a r ih =>
    intro h
    simp only [Ok, Bool.and_eq_true] at h
    obtain ⟨N1, h1⟩ := ih h.1
    refine ⟨N1, fun fuel hf p => ?_⟩
    obtain ⟨q0, e0, b0⟩ := h1 fuel hf p
    obtain ⟨q1, e1, b1⟩ := h1 fuel hf (p ++ q0 ++ [.fork hole hole])
    refine ⟨q0 ++ starCode (p.length + q0.length) r q1, ?_, q0, q1, b0, ?_, rfl⟩
    · simp only [gen, e0, Res.bind_ok]
      rw [genstar_ok _ r _ q1 e1]
      simp
    · have : (p ++ q0 ++ [Inst.fork hole hole]).length = p.length + q0.length + 1 := by simp; omega
      rw [this] at b1
      exact b1
  | quest a ih =>
    intro h
    simp only [Ok] at h
    obtain ⟨N1, h1⟩ := ih h
    refine ⟨N1, fun fuel hf p => ?_⟩
    obtain ⟨q1, e1, b1⟩ := h1 fuel hf (p ++ [.fork hole hole])
    refine ⟨_, ?_, q1, by simpa using b1, rfl⟩
    simp only [gen, genquest, append, e1, Res.bind_ok]
    rw [List.append_assoc, List.singleton_append, set_mid]
    simp [Nat.add_comm, Nat.add_left_comm]
  | cap m a ih =>
    intro h
    simp only [Ok, Bool.and_eq_true] at h
    obtain ⟨N1, h1⟩ := ih h.2
    refine ⟨N1, fun fuel hf p => ?_⟩
    obtain ⟨q1, e1, b1⟩ := h1 fuel hf (p ++ [.lbra m])
    refine ⟨_, ?_, q1, by simpa using b1, rfl⟩
    simp only [gen, append, e1, Res.bind_ok, Res.pure_eq]
    simp

/-! ## Acceptance -/

/-- One step of a thread that is at instruction `ip` and byte `i` with groups `g`. -/
inductive Go (P : List Inst) (s : List Byte) : Nat → Nat → Groups → Nat → Nat → Groups → Prop where
  | byte {ip i g b} : P[ip]? = some (.byte b) → s[i]? = some b → Go P s ip i g (ip + 1) (i + 1) g
  | range {ip i g x y b} : P[ip]? = some (.range x y) → s[i]? = some b → x ≤ b → b ≤ y → Go P s ip i g (ip + 1) (i + 1) g
  | lbra {ip i g m} : P[ip]? = some (.lbra m) → Go P s ip i g (ip + 1) i (opened g m i)
  | rbra {ip i g m} : P[ip]? = some (.rbra m) → Go P s ip i g (ip + 1) i (closed g m i)
  | bol {ip i g} : P[ip]? = some .bol → AtBol s i → Go P s ip i g (ip + 1) i g
  | eol {ip i g} : P[ip]? = some .eol → AtEol s i → Go P s ip i g (ip + 1) i g
  | forkl {ip i g l r} : P[ip]? = some (.fork l r) → Go P s ip i g l i g
  | forkr {ip i g l r} : P[ip]? = some (.fork l r) → Go P s ip i g r i g
  | jmp {ip i g d} : P[ip]? = some (.jmp d) → Go P s ip i g d i g

/-- Reaches a `match` instruction at byte `j` in `n` steps. -/
inductive HitN (P : List Inst) (s : List Byte) : Nat → Nat → Nat → Groups → Nat → Groups → Prop where
  | here {ip i g m} : P[ip]? = some (.mtch m) → HitN P s 0 ip i g i g
  | step {n ip i g ip' i' g' j h} : Go P s ip i g ip' i' g' → HitN P s n ip' i' g' j h → HitN P s (n + 1) ip i g j h

variable {P : List Inst} {s : List Byte} {n ip i j a b : Nat} {g g' : Groups}

theorem hn_byte {x : Byte} (hp : P[ip]? = some (.byte x)) (h : HitN P s n ip i g j g') :
    ∃ n', n = n' + 1 ∧ s[i]? = some x ∧ HitN P s n' (ip + 1) (i + 1) g j g' := by
  cases h with
  | here h => rw [hp] at h; cases h
  | step h1 h2 =>
    cases h1 with
    | byte h hs => rw [hp] at h; cases h; exact ⟨_, rfl, hs, h2⟩
    | range h | lbra h | rbra h | bol h | eol h | forkl h | forkr h | jmp h => rw [hp] at h; cases h

theorem hn_range {x y : Byte} (hp : P[ip]? = some (.range x y)) (h : HitN P s n ip i g j g') :
    ∃ n' b, n = n' + 1 ∧ s[i]? = some b ∧ x ≤ b ∧ b ≤ y ∧ HitN P s n' (ip + 1) (i + 1) g j g' := by
  cases h with
  | here h => rw [hp] at h; cases h
  | step h1 h2 =>
    cases h1 with
    | range h hs hx hy => rw [hp] at h; cases h; exact ⟨_, _, rfl, hs, hx, hy, h2⟩
    | byte h | lbra h | rbra h | bol h | eol h | forkl h | forkr h | jmp h => rw [hp] at h; cases h

theorem hn_lbra {m : Nat} (hp : P[ip]? = some (.lbra m)) (h : HitN P s n ip i g j g') :
    ∃ n', n = n' + 1 ∧ HitN P s n' (ip + 1) i (opened g m i) j g' := by
  cases h with
  | here h => rw [hp] at h; cases h
  | step h1 h2 =>
    cases h1 with
    | lbra h => rw [hp] at h; cases h; exact ⟨_, rfl, h2⟩
    | byte h | range h | rbra h | bol h | eol h | forkl h | forkr h | jmp h => rw [hp] at h; cases h

theorem hn_rbra {m : Nat} (hp : P[ip]? = some (.rbra m)) (h : HitN P s n ip i g j g') :
    ∃ n', n = n' + 1 ∧ HitN P s n' (ip + 1) i (closed g m i) j g' := by
  cases h with
  | here h => rw [hp] at h; cases h
  | step h1 h2 =>
    cases h1 with
    | rbra h => rw [hp] at h; cases h; exact ⟨_, rfl, h2⟩
    | byte h | range h | lbra h | bol h | eol h | forkl h | forkr h | jmp h => rw [hp] at h; cases h

theorem hn_bol (hp : P[ip]? = some .bol) (h : HitN P s n ip i g j g') :
    ∃ n', n = n' + 1 ∧ AtBol s i ∧ HitN P s n' (ip + 1) i g j g' := by
  cases h with
  | here h => rw [hp] at h; cases h
  | step h1 h2 =>
    cases h1 with
    | bol h hb => exact ⟨_, rfl, hb, h2⟩
    | byte h | range h | lbra h | rbra h | eol h | forkl h | forkr h | jmp h => rw [hp] at h; cases h

theorem hn_eol (hp : P[ip]? = some .eol) (h : HitN P s n ip i g j g') :
    ∃ n', n = n' + 1 ∧ AtEol s i ∧ HitN P s n' (ip + 1) i g j g' := by
  cases h with
  | here h => rw [hp] at h; cases h
  | step h1 h2 =>
    cases h1 with
    | eol h hb => exact ⟨_, rfl, hb, h2⟩
    | byte h | range h | lbra h | rbra h | bol h | forkl h | forkr h | jmp h => rw [hp] at h; cases h

theorem hn_fork {l r : Nat} (hp : P[ip]? = some (.fork l r)) (h : HitN P s n ip i g j g') :
    ∃ n', n = n' + 1 ∧ (HitN P s n' l i g j g' ∨ HitN P s n' r i g j g') := by
  cases h with
  | here h => rw [hp] at h; cases h
  | step h1 h2 =>
    cases h1 with
    | forkl h => rw [hp] at h; cases h; exact ⟨_, rfl, .inl h2⟩
    | forkr h => rw [hp] at h; cases h; exact ⟨_, rfl, .inr h2⟩
    | byte h | range h | lbra h | rbra h | bol h | eol h | jmp h => rw [hp] at h; cases h

theorem hn_jmp {d : Nat} (hp : P[ip]? = some (.jmp d)) (h : HitN P s n ip i g j g') :
    ∃ n', n = n' + 1 ∧ HitN P s n' d i g j g' := by
  cases h with
  | here h => rw [hp] at h; cases h
  | step h1 h2 =>
    cases h1 with
    | jmp h => rw [hp] at h; cases h; exact ⟨_, rfl, h2⟩
    | byte h | range h | lbra h | rbra h | bol h | eol h | forkl h | forkr h => rw [hp] at h; cases h

theorem hn_mtch {m : Nat} (hp : P[ip]? = some (.mtch m)) (h : HitN P s n ip i g j g') : j = i ∧ g' = g := by
  cases h with
  | here h => exact ⟨rfl, rfl⟩
  | step h1 h2 =>
    cases h1 with
    | jmp h | byte h | range h | lbra h | rbra h | bol h | eol h | forkl h | forkr h => rw [hp] at h; cases h

/-- Reaches a `match` instruction at byte `j`. -/
def Hit (P : List Inst) (s : List Byte) (ip i : Nat) (g : Groups) (j : Nat) (g' : Groups) : Prop :=
  ∃ n, HitN P s n ip i g j g'

theorem Hit.step {ip' i' : Nat} {g1 : Groups} (h : Go P s ip i g ip' i' g1) (h' : Hit P s ip' i' g1 j g') :
    Hit P s ip i g j g' := by
  obtain ⟨n, h'⟩ := h'
  exact ⟨n + 1, .step h h'⟩

theorem has_nil : Has s i [] := List.nil_prefix

theorem has_cons {b : Byte} {bs : List Byte} : Has s i (b :: bs) ↔ s[i]? = some b ∧ Has s (i + 1) bs := by
  unfold Has
  cases h : s[i]? with
  | none =>
    have := List.getElem?_eq_none_iff.mp h
    rw [List.drop_eq_nil_of_le this]
    simp
  | some x =>
    obtain ⟨hlt, hx⟩ := List.getElem?_eq_some_iff.mp h
    rw [List.drop_eq_getElem_cons hlt, List.cons_prefix_cons, hx]
    constructor
    · rintro ⟨rfl, h2⟩; exact ⟨rfl, h2⟩
    · rintro ⟨h1, h2⟩; cases h1; exact ⟨rfl, h2⟩

theorem bytes_fwd (bs : List Byte) : ∀ {n a i : Nat}, At P a (bs.map .byte) → HitN P s n a i g j g' →
    Has s i bs ∧ ∃ n', n' ≤ n ∧ HitN P s n' (a + bs.length) (i + bs.length) g j g' := by
  induction bs with
  | nil => intro n a i _ h; exact ⟨has_nil, n, Nat.le_refl _, h⟩
  | cons b bs ih =>
    intro n a i hat h
    rw [List.map_cons] at hat
    obtain ⟨h1, h2⟩ := hat.cons
    obtain ⟨n1, rfl, hs, h⟩ := hn_byte h1 h
    obtain ⟨hh, n', hn, h⟩ := ih h2 h
    refine ⟨has_cons.mpr ⟨hs, hh⟩, n', by omega, ?_⟩
    rw [show a + 1 + bs.length = a + (b :: bs).length by simp; omega,
      show i + 1 + bs.length = i + (b :: bs).length by simp; omega] at h
    exact h

theorem bytes_bwd (bs : List Byte) : ∀ {a i : Nat}, At P a (bs.map .byte) → Has s i bs →
    Hit P s (a + bs.length) (i + bs.length) g j g' → Hit P s a i g j g' := by
  induction bs with
  | nil => intro a i _ _ h; exact h
  | cons b bs ih =>
    intro a i hat hh h
    rw [List.map_cons] at hat
    obtain ⟨h1, h2⟩ := hat.cons
    obtain ⟨hs, hh⟩ := has_cons.mp hh
    refine .step (.byte h1 hs) (ih h2 hh ?_)
    rw [show a + 1 + bs.length = a + (b :: bs).length by simp; omega,
      show i + 1 + bs.length = i + (b :: bs).length by simp; omega]
    exact h

/-- The byte strings of a list of children. -/
def CL (ch : List (Byte × Byte × Trie)) : List Byte → Prop
  | [] => False
  | b :: bs => ∃ c ∈ ch, c.1 ≤ b ∧ b ≤ c.2.1 ∧ TL bs c.2.2

theorem rc_fwd {e : Nat} {ch : List (Byte × Byte × Trie)} {q : List Inst} (h : RC e ch a q) : ∀ {n i : Nat}, At P a q →
    HitN P s n a i g j g' → ∃ bs n', CL ch bs ∧ Has s i bs ∧ n' ≤ n ∧ HitN P s n' e (i + bs.length) g j g' := by
  induction h with
  | @leaf x y t a h1 h2 =>
    intro n i hat h
    obtain ⟨p1, hat⟩ := hat.cons
    obtain ⟨p2, -⟩ := hat.cons
    obtain ⟨n1, b, rfl, hs, hx, hy, h⟩ := hn_range p1 h
    obtain ⟨n2, rfl, h'⟩ := hn_jmp p2 h
    exact ⟨[b], n2, ⟨_, List.mem_singleton.mpr rfl, hx, hy, h2⟩, has_cons.mpr ⟨hs, has_nil⟩, by omega, h'⟩
  | @inner x y t a q h1 h2 h3 ih =>
    intro n i hat h
    obtain ⟨p1, hat⟩ := hat.cons
    obtain ⟨n1, b, rfl, hs, hx, hy, h⟩ := hn_range p1 h
    obtain ⟨bs, n', hc, hh, hn, h⟩ := ih hat h
    refine ⟨b :: bs, n', ⟨_, List.mem_singleton.mpr rfl, hx, hy, ?_⟩, has_cons.mpr ⟨hs, hh⟩, by omega, ?_⟩
    · cases bs with
      | nil => exact hc.elim
      | cons _ _ => exact hc
    · rw [show i + (b :: bs).length = i + 1 + bs.length by simp; omega]
      exact h
  | @split c1 c2 a q1 q2 h1 h2 h3 h4 ih1 ih2 =>
    intro n i hat h
    obtain ⟨p1, hat⟩ := hat.cons
    obtain ⟨hat1, hat2⟩ := hat.append
    obtain ⟨n1, rfl, h | h⟩ := hn_fork p1 h
    · obtain ⟨bs, n', hc, hh, hn, h⟩ := ih1 hat1 h
      refine ⟨bs, n', ?_, hh, by omega, h⟩
      cases bs with
      | nil => exact hc
      | cons _ _ => obtain ⟨c, hm, hr⟩ := hc; exact ⟨c, List.mem_append_left _ hm, hr⟩
    · obtain ⟨bs, n', hc, hh, hn, h⟩ := ih2 hat2 h
      refine ⟨bs, n', ?_, hh, by omega, h⟩
      cases bs with
      | nil => exact hc
      | cons _ _ => obtain ⟨c, hm, hr⟩ := hc; exact ⟨c, List.mem_append_right _ hm, hr⟩

theorem rc_bwd {e : Nat} {ch : List (Byte × Byte × Trie)} {q : List Inst} (h : RC e ch a q) : ∀ {i : Nat} (bs : List Byte),
    At P a q → CL ch bs → Has s i bs → Hit P s e (i + bs.length) g j g' → Hit P s a i g j g' := by
  induction h with
  | @leaf x y t a h1 h2 =>
    intro i bs hat hc hh h
    obtain ⟨p1, hat⟩ := hat.cons
    obtain ⟨p2, -⟩ := hat.cons
    cases bs with
    | nil => exact hc.elim
    | cons b bs =>
      obtain ⟨c, hm, hx, hy, ht⟩ := hc
      cases List.mem_singleton.mp hm
      obtain ⟨hs, hh⟩ := has_cons.mp hh
      cases bs with
      | cons _ _ => simp [TL, h1] at ht
      | nil => exact .step (.range p1 hs hx hy) (.step (.jmp p2) h)
  | @inner x y t a q h1 h2 h3 ih =>
    intro i bs hat hc hh h
    obtain ⟨p1, hat⟩ := hat.cons
    cases bs with
    | nil => exact hc.elim
    | cons b bs =>
      obtain ⟨c, hm, hx, hy, ht⟩ := hc
      cases List.mem_singleton.mp hm
      obtain ⟨hs, hh⟩ := has_cons.mp hh
      refine .step (.range p1 hs hx hy) (ih bs hat ?_ hh ?_)
      · cases bs with
        | nil => simp [TL, h2] at ht
        | cons _ _ => exact ht
      · rw [show i + 1 + bs.length = i + (b :: bs).length by simp; omega]
        exact h
  | @split c1 c2 a q1 q2 h1 h2 h3 h4 ih1 ih2 =>
    intro i bs hat hc hh h
    obtain ⟨p1, hat⟩ := hat.cons
    obtain ⟨hat1, hat2⟩ := hat.append
    cases bs with
    | nil => exact hc.elim
    | cons b bs =>
      obtain ⟨c, hm, hr⟩ := hc
      rcases List.mem_append.mp hm with hm | hm
      · exact .step (.forkl p1) (ih1 (b :: bs) hat1 ⟨c, hm, hr⟩ hh h)
      · exact .step (.forkr p1) (ih2 (b :: bs) hat2 ⟨c, hm, hr⟩ hh h)

theorem tl_cl (t : Trie) (h : t.fin = false) (bs : List Byte) : TL bs t ↔ CL t.ch bs := by
  cases bs with
  | nil => simp [TL, CL, h]
  | cons _ _ => rfl

/-- What the code accepts is parsed by the tree. -/
theorem body_fwd (t : Ast) : ∀ {n a i : Nat} {g : Groups} {q : List Inst}, Body t a q → At P a q → HitN P s n a i g j g' →
    ∃ k g1 n', Parse BoxCls s t i g k g1 ∧ n' ≤ n ∧ HitN P s n' (a + q.length) k g1 j g' := by
  have star : ∀ (x : Ast), (∀ {n a i : Nat} {g : Groups} {q : List Inst}, Body x a q → At P a q → HitN P s n a i g j g' →
      ∃ k g1 n', Parse BoxCls s x i g k g1 ∧ n' ≤ n ∧ HitN P s n' (a + q.length) k g1 j g') →
      ∀ (r : Bool) (a : Nat) (q1 : List Inst), Body x (a + 1) q1 → At P a (starCode a r q1) →
      ∀ (m n i : Nat) (g : Groups), n ≤ m → HitN P s n a i g j g' →
      ∃ k g1 n', Parse BoxCls s (.star x r) i g k g1 ∧ n' ≤ n ∧ HitN P s n' (a + (starCode a r q1).length) k g1 j g' := by
    intro x ih r a q1 hb hat m
    obtain ⟨p1, hat⟩ := hat.cons
    obtain ⟨hat1, hat2⟩ := hat.append
    obtain ⟨p2, -⟩ := hat2.cons
    have hl : a + (starCode a r q1).length = a + 1 + q1.length + 1 := by simp [starCode]; omega
    rw [hl]
    induction m with
    | zero =>
      intro n i g hn h
      have : ∃ l r, P[a]? = some (.fork l r) := by
        rw [p1]; cases r <;> exact ⟨_, _, rfl⟩
      obtain ⟨l, r', p⟩ := this
      obtain ⟨n1, rfl, -⟩ := hn_fork p h
      omega
    | succ m ihm =>
      intro n i g hn h
      have hcase : ∃ n1, n = n1 + 1 ∧ (HitN P s n1 (a + 1) i g j g' ∨ HitN P s n1 (a + 1 + q1.length + 1) i g j g') := by
        cases r
        · exact hn_fork p1 h
        · obtain ⟨n1, e, h | h⟩ := hn_fork p1 h
          · exact ⟨n1, e, .inr h⟩
          · exact ⟨n1, e, .inl h⟩
      obtain ⟨n1, rfl, h | h⟩ := hcase
      · obtain ⟨k, g1, n2, hp, hn2, h⟩ := ih hb hat1 h
        obtain ⟨n3, rfl, h'⟩ := hn_jmp p2 h
        obtain ⟨k', g2, n4, hp', hn4, h⟩ := ihm n3 k g1 (by omega) h'
        exact ⟨k', g2, n4, .star1 hp hp', by omega, h⟩
      · exact ⟨i, g, n1, .star0, by omega, h⟩
  induction t with
  | chr c =>
    intro n a i g q hb hat h
    cases hb
    obtain ⟨hh, n', hn, h⟩ := bytes_fwd _ hat h
    exact ⟨_, _, n', .chr hh, hn, by simpa using h⟩
  | ranges rl =>
    intro n a i g q hb hat h
    obtain ⟨t, -, ht, hL, hrc⟩ := hb
    obtain ⟨bs, n', hc, hh, hn, h⟩ := rc_fwd hrc hat h
    exact ⟨_, _, n', .ranges ((hL bs).mp ((tl_cl t ht.1 bs).mpr hc)) hh, hn, h⟩
  | bol =>
    intro n a i g q hb hat h
    cases hb
    obtain ⟨n', rfl, hb, h⟩ := hn_bol hat.cons.1 h
    exact ⟨_, _, n', .bol hb, by omega, h⟩
  | eol =>
    intro n a i g q hb hat h
    cases hb
    obtain ⟨n', rfl, hb, h⟩ := hn_eol hat.cons.1 h
    exact ⟨_, _, n', .eol hb, by omega, h⟩
  | bow => intro n a i g q hb; exact hb.elim
  | eow => intro n a i g q hb; exact hb.elim
  | cat x y ihx ihy =>
    intro n a i g q hb hat h
    obtain ⟨q1, q2, b1, b2, rfl⟩ := hb
    obtain ⟨hat1, hat2⟩ := hat.append
    obtain ⟨k, g1, n1, hp, hn, h⟩ := ihx b1 hat1 h
    obtain ⟨k', g2, n2, hp', hn', h⟩ := ihy b2 hat2 h
    refine ⟨k', g2, n2, .cat hp hp', by omega, ?_⟩
    rw [List.length_append, ← Nat.add_assoc]
    exact h
  | alt x y ihx ihy =>
    intro n a i g q hb hat h
    obtain ⟨q1, q2, b1, b2, rfl⟩ := hb
    obtain ⟨p1, hat⟩ := hat.cons
    obtain ⟨hat1, hat⟩ := hat.append
    obtain ⟨p2, hat2⟩ := hat.cons
    rw [show a + (Inst.fork (a + 1) (a + 1 + q1.length + 1) :: (q1 ++ Inst.jmp (a + 1 + q1.length + 1 + q2.length) :: q2)).length =
      a + 1 + q1.length + 1 + q2.length by simp; omega]
    obtain ⟨n1, rfl, h | h⟩ := hn_fork p1 h
    · obtain ⟨k, g1, n2, hp, hn, h⟩ := ihx b1 hat1 h
      obtain ⟨n3, rfl, h'⟩ := hn_jmp p2 h
      exact ⟨k, g1, n3, .altl hp, by omega, h'⟩
    · obtain ⟨k, g1, n2, hp, hn, h⟩ := ihy b2 hat2 h
      exact ⟨k, g1, n2, .altr hp, by omega, h⟩
  | star x r ih =>
    intro n a i g q hb hat h
    obtain ⟨q1, b1, rfl⟩ := hb
    exact star x ih r a q1 b1 hat n n i g (Nat.le_refl _) h
  | plus x r ih =>
    intro n a i g q hb hat h
    obtain ⟨q0, q1, b0, b1, rfl⟩ := hb
    obtain ⟨hat0, hat1⟩ := hat.append
    obtain ⟨k, g1, n2, hp, hn, h⟩ := ih b0 hat0 h
    obtain ⟨k', g2, n3, hp', hn', h⟩ := star x ih r _ q1 b1 hat1 n2 n2 k g1 (Nat.le_refl _) h
    refine ⟨k', g2, n3, .plus hp hp', by omega, ?_⟩
    rw [List.length_append, ← Nat.add_assoc]
    exact h
  | quest x ih =>
    intro n a i g q hb hat h
    obtain ⟨q1, b1, rfl⟩ := hb
    obtain ⟨p1, hat⟩ := hat.cons
    rw [show a + (Inst.fork (a + 1) (a + 1 + q1.length) :: q1).length = a + 1 + q1.length by simp; omega]
    obtain ⟨n1, rfl, h | h⟩ := hn_fork p1 h
    · obtain ⟨k, g1, n2, hp, hn, h⟩ := ih b1 hat h
      exact ⟨k, g1, n2, .quest1 hp, by omega, h⟩
    · exact ⟨i, g, n1, .quest0, by omega, h⟩
  | cap m x ih =>
    intro n a i g q hb hat h
    obtain ⟨q1, b1, rfl⟩ := hb
    obtain ⟨p1, hat⟩ := hat.cons
    obtain ⟨hat1, hat⟩ := hat.append
    obtain ⟨p2, -⟩ := hat.cons
    rw [show a + (Inst.lbra m :: (q1 ++ [Inst.rbra m])).length = a + 1 + q1.length + 1 by simp; omega]
    obtain ⟨n1, rfl, h'⟩ := hn_lbra p1 h
    obtain ⟨k, g1, n2, hp, hn, h2⟩ := ih b1 hat1 h'
    obtain ⟨n3, rfl, h3⟩ := hn_rbra p2 h2
    exact ⟨k, _, n3, .cap hp, by omega, h3⟩

/-- What the tree parses is accepted by the code. -/
theorem body_bwd {t : Ast} {k : Nat} {g1 : Groups} (hp : Parse BoxCls s t i g k g1) : ∀ {a : Nat} {q : List Inst},
    Body t a q → At P a q → Hit P s (a + q.length) k g1 j g' → Hit P s a i g j g' := by
  induction hp with
  | chr hh =>
    intro a q hb hat h
    cases hb
    exact bytes_bwd _ hat hh (by simpa using h)
  | ranges hc hh =>
    intro a q hb hat h
    obtain ⟨t, -, ht, hL, hrc⟩ := hb
    exact rc_bwd hrc _ hat ((tl_cl t ht.1 _).mp ((hL _).mpr hc)) hh h
  | bol hb' =>
    intro a q hb hat h
    cases hb
    exact .step (.bol hat.cons.1 hb') h
  | eol hb' =>
    intro a q hb hat h
    cases hb
    exact .step (.eol hat.cons.1 hb') h
  | cat _ _ ih1 ih2 =>
    intro a q hb hat h
    obtain ⟨q1, q2, b1, b2, rfl⟩ := hb
    obtain ⟨hat1, hat2⟩ := hat.append
    refine ih1 b1 hat1 (ih2 b2 hat2 ?_)
    rw [List.length_append, ← Nat.add_assoc] at h
    exact h
  | altl _ ih =>
    intro a q hb hat h
    obtain ⟨q1, q2, b1, b2, rfl⟩ := hb
    obtain ⟨p1, hat⟩ := hat.cons
    obtain ⟨hat1, hat⟩ := hat.append
    obtain ⟨p2, hat2⟩ := hat.cons
    rw [show a + (Inst.fork (a + 1) (a + 1 + q1.length + 1) :: (q1 ++ Inst.jmp (a + 1 + q1.length + 1 + q2.length) :: q2)).length =
      a + 1 + q1.length + 1 + q2.length by simp; omega] at h
    exact .step (.forkl p1) (ih b1 hat1 (.step (.jmp p2) h))
  | altr _ ih =>
    intro a q hb hat h
    obtain ⟨q1, q2, b1, b2, rfl⟩ := hb
    obtain ⟨p1, hat⟩ := hat.cons
    obtain ⟨hat1, hat⟩ := hat.append
    obtain ⟨p2, hat2⟩ := hat.cons
    rw [show a + (Inst.fork (a + 1) (a + 1 + q1.length + 1) :: (q1 ++ Inst.jmp (a + 1 + q1.length + 1 + q2.length) :: q2)).length =
      a + 1 + q1.length + 1 + q2.length by simp; omega] at h
    exact .step (.forkr p1) (ih b2 hat2 h)
  | @star0 x r i g =>
    intro a q hb hat h
    obtain ⟨q1, b1, rfl⟩ := hb
    obtain ⟨p1, hat⟩ := hat.cons
    rw [show a + (starCode a r q1).length = a + 1 + q1.length + 1 by simp [starCode]; omega] at h
    cases r
    · exact .step (.forkr p1) h
    · exact .step (.forkl p1) h
  | @star1 x r i g j g1 k g2 _ _ ih1 ih2 =>
    intro a q hb hat h
    have hb' := hb
    have hat' := hat
    obtain ⟨q1, b1, rfl⟩ := hb
    obtain ⟨p1, hat⟩ := hat.cons
    obtain ⟨hat1, hat2⟩ := hat.append
    obtain ⟨p2, -⟩ := hat2.cons
    have h1 : Hit P s (a + 1) i g _ g' := ih1 b1 hat1 (.step (.jmp p2) (ih2 hb' hat' h))
    cases r
    · exact .step (.forkl p1) h1
    · exact .step (.forkr p1) h1
  | plus _ _ ih1 ih2 =>
    intro a q hb hat h
    obtain ⟨q0, q1, b0, b1, rfl⟩ := hb
    obtain ⟨hat0, hat1⟩ := hat.append
    refine ih1 b0 hat0 (ih2 ⟨q1, b1, rfl⟩ hat1 ?_)
    rw [List.length_append, ← Nat.add_assoc] at h
    exact h
  | quest0 =>
    intro a q hb hat h
    obtain ⟨q1, b1, rfl⟩ := hb
    obtain ⟨p1, hat⟩ := hat.cons
    rw [show a + (Inst.fork (a + 1) (a + 1 + q1.length) :: q1).length = a + 1 + q1.length by simp; omega] at h
    exact .step (.forkr p1) h
  | quest1 _ ih =>
    intro a q hb hat h
    obtain ⟨q1, b1, rfl⟩ := hb
    obtain ⟨p1, hat⟩ := hat.cons
    rw [show a + (Inst.fork (a + 1) (a + 1 + q1.length) :: q1).length = a + 1 + q1.length by simp; omega] at h
    exact .step (.forkl p1) (ih b1 hat h)
  | @cap m x _ _ _ _ _ ih =>
    intro a q hb hat h
    obtain ⟨q1, b1, rfl⟩ := hb
    obtain ⟨p1, hat⟩ := hat.cons
    obtain ⟨hat1, hat⟩ := hat.append
    obtain ⟨p2, -⟩ := hat.cons
    rw [show a + (Inst.lbra m :: (q1 ++ [Inst.rbra m])).length = a + 1 + q1.length + 1 by simp; omega] at h
    exact .step (.lbra p1) (ih b1 hat1 (.step (.rbra p2) h))

/-! ## Steps that consume nothing end -/

/-- Where a thread can go without consuming. -/
def succs (P : List Inst) (ip : Nat) : List Nat :=
  match P[ip]? with
  | some (.lbra _) => [ip + 1]
  | some (.rbra _) => [ip + 1]
  | some .bol => [ip + 1]
  | some .eol => [ip + 1]
  | some .bow => [ip + 1]
  | some .eow => [ip + 1]
  | some (.fork l r) => [l, r]
  | some (.jmp d) => [d]
  | _ => []

/-- No endless run without consuming starts here. -/
def Fin (P : List Inst) (ip : Nat) : Prop := Acc (fun y x => y ∈ succs P x) ip

theorem Fin.of (h : ∀ y ∈ succs P ip, Fin P y) : Fin P ip := Acc.intro _ h

theorem fin_consume (h : (∃ b, P[ip]? = some (.byte b)) ∨ (∃ x y, P[ip]? = some (.range x y))) : Fin P ip := by
  refine .of ?_
  intro y hy
  rcases h with ⟨b, h⟩ | ⟨x, z, h⟩ <;> simp [succs, h] at hy

theorem fin_bytes (bs : List Byte) : ∀ {a : Nat}, At P a (bs.map .byte) → Fin P (a + bs.length) →
    (∀ ip, a ≤ ip → ip ≤ a + bs.length → Fin P ip) ∧ (bs ≠ [] → Fin P a) := by
  induction bs with
  | nil =>
    intro a _ h
    exact ⟨fun ip h1 h2 => by simp at h2; rw [show ip = a by omega]; exact h, by simp⟩
  | cons b bs ih =>
    intro a hat h
    rw [List.map_cons] at hat
    obtain ⟨p, hat⟩ := hat.cons
    have h0 : Fin P a := fin_consume (.inl ⟨b, p⟩)
    refine ⟨?_, fun _ => h0⟩
    intro ip h1 h2
    by_cases he : ip = a
    · rw [he]; exact h0
    · exact (ih hat (by rw [show a + 1 + bs.length = a + (b :: bs).length by simp; omega]; exact h)).1 ip (by omega)
        (by simp at h2; omega)

theorem fin_rc {e : Nat} {ch : List (Byte × Byte × Trie)} {q : List Inst} (h : RC e ch a q) : At P a q →
    Fin P a ∧ (Fin P e → ∀ ip, a ≤ ip → ip < a + q.length → Fin P ip) := by
  induction h with
  | @leaf x y t a h1 h2 =>
    intro hat
    obtain ⟨p1, hat⟩ := hat.cons
    obtain ⟨p2, -⟩ := hat.cons
    have h0 : Fin P a := fin_consume (.inr ⟨_, _, p1⟩)
    refine ⟨h0, fun he ip i1 i2 => ?_⟩
    obtain rfl | rfl : ip = a ∨ ip = a + 1 := by simp at i2; omega
    · exact h0
    · exact .of (by simp [succs, p2]; exact he)
  | @inner x y t a q h1 h2 h3 ih =>
    intro hat
    obtain ⟨p1, hat⟩ := hat.cons
    have h0 : Fin P a := fin_consume (.inr ⟨_, _, p1⟩)
    refine ⟨h0, fun he ip i1 i2 => ?_⟩
    by_cases hi : ip = a
    · rw [hi]; exact h0
    · exact (ih hat).2 he ip (by omega) (by simp at i2; omega)
  | @split c1 c2 a q1 q2 h1 h2 h3 h4 ih1 ih2 =>
    intro hat
    obtain ⟨p1, hat⟩ := hat.cons
    obtain ⟨hat1, hat2⟩ := hat.append
    have h0 : Fin P a := .of (by simp [succs, p1]; exact ⟨(ih1 hat1).1, (ih2 hat2).1⟩)
    refine ⟨h0, fun he ip i1 i2 => ?_⟩
    by_cases hi : ip = a
    · rw [hi]; exact h0
    by_cases hi2 : ip < a + 1 + q1.length
    · exact (ih1 hat1).2 he ip (by omega) hi2
    · exact (ih2 hat2).2 he ip (by omega) (by simp at i2; omega)

theorem fin_body (t : Ast) : ∀ {a : Nat} {q : List Inst}, Ok validRng t = true → Body t a q → At P a q →
    (nullable t = false → Fin P a) ∧ (Fin P (a + q.length) → ∀ ip, a ≤ ip → ip ≤ a + q.length → Fin P ip) := by
  have star : ∀ (x : Ast), (∀ {a : Nat} {q : List Inst}, Ok validRng x = true → Body x a q → At P a q →
      (nullable x = false → Fin P a) ∧ (Fin P (a + q.length) → ∀ ip, a ≤ ip → ip ≤ a + q.length → Fin P ip)) →
      ∀ (r : Bool) (a : Nat) (q1 : List Inst), Ok validRng x = true → nullable x = false → Body x (a + 1) q1 →
      At P a (starCode a r q1) → Fin P (a + (starCode a r q1).length) →
      ∀ ip, a ≤ ip → ip ≤ a + (starCode a r q1).length → Fin P ip := by
    intro x ih r a q1 hok hnn hb hat he ip i1 i2
    obtain ⟨p1, hat⟩ := hat.cons
    obtain ⟨hat1, hat2⟩ := hat.append
    obtain ⟨p2, -⟩ := hat2.cons
    have hl : a + (starCode a r q1).length = a + 1 + q1.length + 1 := by simp [starCode]; omega
    rw [hl] at he i2
    have hs : Fin P (a + 1) := (ih hok hb hat1).1 hnn
    have h0 : Fin P a := by
      refine .of ?_
      cases r <;> simp [succs, p1] <;> exact ⟨by assumption, by assumption⟩
    have hj : Fin P (a + 1 + q1.length) := .of (by simp [succs, p2]; exact h0)
    by_cases c1 : ip = a
    · rw [c1]; exact h0
    by_cases c2 : ip = a + 1 + q1.length + 1
    · rw [c2]; exact he
    · exact (ih hok hb hat1).2 hj ip (by omega) (by omega)
  induction t with
  | chr c =>
    intro a q hok hb hat
    cases hb
    have h0 : Fin P a := by
      cases hu : utf8 c.toNat with
      | nil => exact absurd hu (utf8_ne_nil _)
      | cons x r =>
        rw [hu] at hat
        exact fin_consume (.inl ⟨x, hat.cons.1⟩)
    refine ⟨fun _ => h0, fun he ip i1 i2 => ?_⟩
    exact (fin_bytes _ hat (by simpa using he)).1 ip i1 (by simpa using i2)
  | ranges rl =>
    intro a q hok hb hat
    obtain ⟨t, -, ht, hL, hrc⟩ := hb
    refine ⟨fun _ => (fin_rc hrc hat).1, fun he ip i1 i2 => ?_⟩
    by_cases c : ip = a + q.length
    · rw [c]; exact he
    · exact (fin_rc hrc hat).2 he ip i1 (by omega)
  | bol =>
    intro a q hok hb hat
    cases hb
    refine ⟨by simp [nullable], fun he ip i1 i2 => ?_⟩
    simp only [List.length_singleton] at he i2
    by_cases c : ip = a + 1
    · rw [c]; exact he
    · rw [show ip = a by omega]
      exact .of (by simp [succs, hat.cons.1]; exact he)
  | eol =>
    intro a q hok hb hat
    cases hb
    refine ⟨by simp [nullable], fun he ip i1 i2 => ?_⟩
    simp only [List.length_singleton] at he i2
    by_cases c : ip = a + 1
    · rw [c]; exact he
    · rw [show ip = a by omega]
      exact .of (by simp [succs, hat.cons.1]; exact he)
  | bow => intro a q hok hb; exact hb.elim
  | eow => intro a q hok hb; exact hb.elim
  | cat x y ihx ihy =>
    intro a q hok hb hat
    simp only [Ok, Bool.and_eq_true] at hok
    obtain ⟨q1, q2, b1, b2, rfl⟩ := hb
    obtain ⟨hat1, hat2⟩ := hat.append
    have hx := ihx hok.1 b1 hat1
    have hy := ihy hok.2 b2 hat2
    rw [List.length_append, ← Nat.add_assoc]
    refine ⟨?_, fun he ip i1 i2 => ?_⟩
    · intro hn
      simp only [nullable, Bool.and_eq_false_iff] at hn
      rcases hn with hn | hn
      · exact hx.1 hn
      · exact hx.2 (hy.1 hn) a (by omega) (by omega)
    · have h2 := hy.2 he
      by_cases c : ip ≤ a + q1.length
      · exact hx.2 (h2 _ (by omega) (by omega)) ip i1 c
      · exact h2 ip (by omega) i2
  | alt x y ihx ihy =>
    intro a q hok hb hat
    simp only [Ok, Bool.and_eq_true] at hok
    obtain ⟨q1, q2, b1, b2, rfl⟩ := hb
    obtain ⟨p1, hat⟩ := hat.cons
    obtain ⟨hat1, hat⟩ := hat.append
    obtain ⟨p2, hat2⟩ := hat.cons
    have hx := ihx hok.1 b1 hat1
    have hy := ihy hok.2 b2 hat2
    rw [show a + (Inst.fork (a + 1) (a + 1 + q1.length + 1) :: (q1 ++ Inst.jmp (a + 1 + q1.length + 1 + q2.length) :: q2)).length =
      a + 1 + q1.length + 1 + q2.length by simp; omega]
    refine ⟨?_, fun he ip i1 i2 => ?_⟩
    · intro hn
      simp only [nullable, Bool.or_eq_false_iff] at hn
      exact .of (by simp [succs, p1]; exact ⟨hx.1 hn.1, hy.1 hn.2⟩)
    · have h2 := hy.2 he
      have hj : Fin P (a + 1 + q1.length) := .of (by simp [succs, p2]; exact he)
      have h1 := hx.2 hj
      by_cases c : ip = a
      · rw [c]
        exact .of (by simp [succs, p1]; exact ⟨h1 _ (by omega) (by omega), h2 _ (by omega) (by omega)⟩)
      by_cases c2 : ip ≤ a + 1 + q1.length
      · exact h1 ip (by omega) c2
      · exact h2 ip (by omega) i2
  | star x r ih =>
    intro a q hok hb hat
    simp only [Ok, Bool.and_eq_true, Bool.not_eq_true'] at hok
    obtain ⟨q1, b1, rfl⟩ := hb
    exact ⟨by simp [nullable], star x ih r a q1 hok.1 hok.2 b1 hat⟩
  | plus x r ih =>
    intro a q hok hb hat
    simp only [Ok, Bool.and_eq_true, Bool.not_eq_true'] at hok
    obtain ⟨q0, q1, b0, b1, rfl⟩ := hb
    obtain ⟨hat0, hat1⟩ := hat.append
    have hx := ih hok.1 b0 hat0
    rw [List.length_append, ← Nat.add_assoc]
    refine ⟨fun _ => hx.1 hok.2, fun he ip i1 i2 => ?_⟩
    have h2 := star x ih r _ q1 hok.1 hok.2 b1 hat1 he
    by_cases c : ip ≤ a + q0.length
    · exact hx.2 (h2 _ (by omega) (by omega)) ip i1 c
    · exact h2 ip (by omega) i2
  | quest x ih =>
    intro a q hok hb hat
    simp only [Ok] at hok
    obtain ⟨q1, b1, rfl⟩ := hb
    obtain ⟨p1, hat⟩ := hat.cons
    have hx := ih hok b1 hat
    rw [show a + (Inst.fork (a + 1) (a + 1 + q1.length) :: q1).length = a + 1 + q1.length by simp; omega]
    refine ⟨by simp [nullable], fun he ip i1 i2 => ?_⟩
    have h1 := hx.2 he
    by_cases c : ip = a
    · rw [c]
      exact .of (by simp [succs, p1]; exact ⟨h1 _ (by omega) (by omega), he⟩)
    · exact h1 ip (by omega) i2
  | cap m x ih =>
    intro a q hok hb hat
    simp only [Ok, Bool.and_eq_true] at hok
    obtain ⟨q1, b1, rfl⟩ := hb
    obtain ⟨p1, hat⟩ := hat.cons
    obtain ⟨hat1, hat⟩ := hat.append
    obtain ⟨p2, -⟩ := hat.cons
    have hx := ih hok.2 b1 hat1
    rw [show a + (Inst.lbra m :: (q1 ++ [Inst.rbra m])).length = a + 1 + q1.length + 1 by simp; omega]
    refine ⟨fun hn => .of (by simp [succs, p1]; exact hx.1 hn), fun he ip i1 i2 => ?_⟩
    have hr : Fin P (a + 1 + q1.length) := .of (by simp [succs, p2]; exact he)
    have h1 := hx.2 hr
    by_cases c : ip = a
    · rw [c]; exact .of (by simp [succs, p1]; exact h1 _ (by omega) (by omega))
    by_cases c2 : ip = a + 1 + q1.length + 1
    · rw [c2]; exact he
    · exact h1 ip (by omega) (by omega)

end Verif.Regex
