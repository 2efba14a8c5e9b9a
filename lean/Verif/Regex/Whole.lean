import Verif.Regex.Run

/-! # Compiled programs are well formed, and what they accept -/

namespace Verif.Regex
open Verif.Utf

/-- An instruction of a body whose targets are at most `e`. -/
def Loc (e : Nat) : Inst → Prop
  | .lbra m => m < 16
  | .rbra m => m < 16
  | .fork l r => l ≤ e ∧ r ≤ e
  | .jmp d => d ≤ e
  | .mtch _ => False
  | .bow => False
  | .eow => False
  | _ => True

theorem rc_loc {e a : Nat} {ch : List (Byte × Byte × Trie)} {q : List Inst} (h : RC e ch a q) : a + q.length ≤ e →
    ∀ x ∈ q, Loc e x := by
  induction h with
  | leaf h1 h2 => intro _ x hx; rcases List.mem_cons.mp hx with rfl | hx
                  · trivial
                  · cases List.mem_singleton.mp hx; exact Nat.le_refl _
  | inner h1 h2 h3 ih =>
    intro hl x hx
    simp only [List.length_cons] at hl
    rcases List.mem_cons.mp hx with rfl | hx
    · trivial
    · exact ih (by omega) x hx
  | split h1 h2 h3 h4 ih1 ih2 =>
    intro hl x hx
    simp only [List.length_cons, List.length_append] at hl
    rcases List.mem_cons.mp hx with rfl | hx
    · exact ⟨by omega, by omega⟩
    · rcases List.mem_append.mp hx with hx | hx
      · exact ih1 (by omega) x hx
      · exact ih2 (by omega) x hx

theorem star_loc {e a : Nat} {r : Bool} {q : List Inst} (hl : a + (starCode a r q).length ≤ e) (h : ∀ x ∈ q, Loc e x) :
    ∀ x ∈ starCode a r q, Loc e x := by
  intro x hx
  simp only [starCode, List.length_cons, List.length_append, List.length_nil] at hl
  rcases List.mem_cons.mp hx with rfl | hx
  · cases r <;> exact ⟨by omega, by omega⟩
  · rcases List.mem_append.mp hx with hx | hx
    · exact h x hx
    · cases List.mem_singleton.mp hx
      show a ≤ e
      omega

theorem body_loc (t : Ast) : ∀ {e a : Nat} {q : List Inst}, Ok validRng t = true → Body t a q → a + q.length ≤ e →
    ∀ x ∈ q, Loc e x := by
  induction t with
  | chr c =>
    intro e a q _ hb _ x hx
    cases hb
    obtain ⟨b, -, rfl⟩ := List.mem_map.mp hx
    trivial
  | ranges rl =>
    intro e a q hok hb hl x hx
    obtain ⟨t, -, ht, hL, hrc⟩ := hb
    have := rc_loc hrc (Nat.le_refl _) x hx
    revert this
    cases x <;> simp only [Loc] <;> first | omega | exact id
  | cat x y ihx ihy =>
    intro e a q hok hb hl z hz
    simp only [Ok, Bool.and_eq_true] at hok
    obtain ⟨q1, q2, h1, h2, rfl⟩ := hb
    simp only [List.length_append] at hl
    rcases List.mem_append.mp hz with hz | hz
    · exact ihx hok.1 h1 (by omega) z hz
    · exact ihy hok.2 h2 (by omega) z hz
  | alt x y ihx ihy =>
    intro e a q hok hb hl z hz
    simp only [Ok, Bool.and_eq_true] at hok
    obtain ⟨q1, q2, h1, h2, rfl⟩ := hb
    simp only [List.length_append, List.length_cons] at hl
    rcases List.mem_cons.mp hz with rfl | hz
    · exact ⟨by omega, by omega⟩
    · rcases List.mem_append.mp hz with hz | hz
      · exact ihx hok.1 h1 (by omega) z hz
      · rcases List.mem_cons.mp hz with rfl | hz
        · show _ ≤ e
          omega
        · exact ihy hok.2 h2 (by omega) z hz
  | star x r ih =>
    intro e a q hok hb hl
    simp only [Ok, Bool.and_eq_true] at hok
    obtain ⟨q1, h1, rfl⟩ := hb
    refine star_loc hl (ih hok.1 h1 ?_)
    simp only [starCode, List.length_cons, List.length_append, List.length_nil] at hl
    omega
  | plus x r ih =>
    intro e a q hok hb hl z hz
    simp only [Ok, Bool.and_eq_true] at hok
    obtain ⟨q0, q1, h0, h1, rfl⟩ := hb
    simp only [List.length_append] at hl
    rcases List.mem_append.mp hz with hz | hz
    · exact ih hok.1 h0 (by omega) z hz
    · refine star_loc (e := e) (by omega) (ih hok.1 h1 ?_) z hz
      simp only [starCode, List.length_cons, List.length_append, List.length_nil] at hl
      omega
  | quest x ih =>
    intro e a q hok hb hl z hz
    obtain ⟨q1, h1, rfl⟩ := hb
    simp only [List.length_cons] at hl
    rcases List.mem_cons.mp hz with rfl | hz
    · exact ⟨by omega, by omega⟩
    · exact ih hok h1 (by omega) z hz
  | cap m x ih =>
    intro e a q hok hb hl z hz
    simp only [Ok, Bool.and_eq_true, decide_eq_true_eq] at hok
    obtain ⟨q1, h1, rfl⟩ := hb
    simp only [List.length_append, List.length_cons, List.length_nil] at hl
    rcases List.mem_cons.mp hz with rfl | hz
    · exact hok.1
    · rcases List.mem_append.mp hz with hz | hz
      · exact ih hok.2 h1 (by omega) z hz
      · cases List.mem_singleton.mp hz
        exact hok.1
  | bol => intro e a q _ hb _ x hx; cases hb; cases List.mem_singleton.mp hx; trivial
  | eol => intro e a q _ hb _ x hx; cases hb; cases List.mem_singleton.mp hx; trivial
  | bow => intro e a q _ hb; exact hb.elim
  | eow => intro e a q _ hb; exact hb.elim

/-- A whole program around `q`. -/
def prog (q : List Inst) : List Inst := .lbra 0 :: (q ++ [.rbra 0, .mtch 0])

theorem prog_length (q : List Inst) : (prog q).length = q.length + 3 := by simp [prog]

theorem prog_get (q : List Inst) (ip : Nat) (x : Inst) (h : (prog q)[ip]? = some x) :
    (ip = 0 ∧ x = .lbra 0) ∨ (1 ≤ ip ∧ ip ≤ q.length ∧ x ∈ q) ∨ (ip = q.length + 1 ∧ x = .rbra 0) ∨ (ip = q.length + 2 ∧ x = .mtch 0) := by
  cases ip with
  | zero => simp [prog] at h; exact .inl ⟨rfl, h.symm⟩
  | succ k =>
    simp only [prog, List.getElem?_cons_succ] at h
    by_cases hk : k < q.length
    · rw [List.getElem?_append_left hk] at h
      exact .inr (.inl ⟨by omega, by omega, List.mem_of_getElem? h⟩)
    · rw [List.getElem?_append_right (by omega)] at h
      obtain ⟨d, hd⟩ : ∃ d, d = k - q.length := ⟨_, rfl⟩
      rw [← hd] at h
      match d, h with
      | 0, h => simp at h; exact .inr (.inr (.inl ⟨by omega, h.symm⟩))
      | 1, h => simp at h; exact .inr (.inr (.inr ⟨by omega, h.symm⟩))
      | d + 2, h => simp at h

theorem prog_at (q : List Inst) : At (prog q) 1 q := by
  intro k hk
  rw [Nat.add_comm]
  simp [prog, List.getElem?_append_left hk]

theorem prog_wf {q : List Inst} (hl : ∀ x ∈ q, Loc (q.length + 1) x) (hs : (prog q).length ≤ 2 ^ 30) : Wf (prog q) := by
  have len := prog_length q
  have nom : ∀ (ip : Nat) m, ip ≤ q.length → (prog q)[ip + 1]? ≠ some (.mtch m) := by
    intro ip m hip h
    rcases prog_get q _ _ h with ⟨h1, h2⟩ | ⟨h1, h2, h3⟩ | ⟨h1, h2⟩ | ⟨h1, h2⟩
    · omega
    · exact hl _ h3
    · cases h2
    · omega
  constructor
  · exact hs
  · intro ip x h
    rcases prog_get q ip x h with ⟨-, rfl⟩ | ⟨-, -, hx⟩ | ⟨-, rfl⟩ | ⟨-, rfl⟩
    · simp [Fits]
    · have := hl x hx
      revert this
      cases x <;> simp only [Loc, Fits] <;> first | omega | exact id | exact False.elim
    · simp [Fits]
    · simp [Fits]
  · intro ip x h h1 h2 h3
    rcases prog_get q ip x h with ⟨rfl, rfl⟩ | ⟨-, h5, hx⟩ | ⟨rfl, rfl⟩ | ⟨rfl, rfl⟩
    · omega
    · omega
    · omega
    · exact (h1 0 rfl).elim
  · intro ip l r h
    rcases prog_get q ip _ h with ⟨-, h⟩ | ⟨-, -, hx⟩ | ⟨-, h⟩ | ⟨-, h⟩
    · cases h
    · have := hl _ hx
      simp only [Loc] at this
      omega
    · cases h
    · cases h
  · intro ip d h
    rcases prog_get q ip _ h with ⟨-, h⟩ | ⟨-, -, hx⟩ | ⟨-, h⟩ | ⟨-, h⟩
    · cases h
    · have := hl _ hx
      simp only [Loc] at this
      omega
    · cases h
    · cases h
  · intro ip b m h
    rcases prog_get q ip _ h with ⟨-, h⟩ | ⟨-, h5, hx⟩ | ⟨-, h⟩ | ⟨-, h⟩
    · cases h
    · exact nom ip m h5
    · cases h
    · cases h
  · intro ip x y m h
    rcases prog_get q ip _ h with ⟨-, h⟩ | ⟨-, h5, hx⟩ | ⟨-, h⟩ | ⟨-, h⟩
    · cases h
    · exact nom ip m h5
    · cases h
    · cases h

theorem prog_tail (q : List Inst) : (prog q)[q.length + 1]? = some (.rbra 0) ∧ (prog q)[q.length + 2]? = some (.mtch 0) := by
  simp [prog]

theorem prog_fin {t : Ast} {q : List Inst} (hok : Ok validRng t = true) (hb : Body t 1 q) (ip : Nat) : Fin (prog q) ip := by
  obtain ⟨p1, p2⟩ := prog_tail q
  have hm : Fin (prog q) (q.length + 2) := .of (by simp [succs, p2])
  have hr : Fin (prog q) (q.length + 1) := .of (by simp [succs, p1]; exact hm)
  have hbody := (fin_body t hok hb (prog_at q)).2 (by rw [Nat.add_comm]; exact hr)
  by_cases h0 : ip = 0
  · rw [h0]
    exact .of (by simp [succs, prog]; exact hbody 1 (by omega) (by omega))
  · by_cases h1 : ip ≤ 1 + q.length
    · exact hbody ip (by omega) h1
    · by_cases h2 : ip = q.length + 2
      · rw [h2]; exact hm
      · refine .of ?_
        have : (prog q)[ip]? = none := by
          rw [List.getElem?_eq_none_iff, prog_length]
          omega
        simp [succs, this]

theorem prog_hit {t : Ast} {q : List Inst} (hb : Body t 1 q) (s : List Byte) (j : Nat) (g g' : Groups) :
    Hit (prog q) s 0 0 g j g' ↔ Parse BoxCls s (.cap 0 t) 0 g j g' := by
  obtain ⟨p1, p2⟩ := prog_tail q
  have p0 : (prog q)[0]? = some (.lbra 0) := rfl
  constructor
  · rintro ⟨n, h⟩
    obtain ⟨n1, -, h1⟩ := hn_lbra p0 h
    obtain ⟨k, g1, n2, hp, -, h2⟩ := body_fwd t hb (prog_at q) h1
    rw [Nat.add_comm] at h2
    obtain ⟨n3, -, h3⟩ := hn_rbra p1 h2
    obtain ⟨rfl, rfl⟩ := hn_mtch p2 h3
    exact .cap hp
  · intro h
    cases h with
    | cap h =>
      refine Hit.step (.lbra p0) (body_bwd h hb (prog_at q) ?_)
      rw [Nat.add_comm]
      exact Hit.step (.rbra p1) ⟨0, .here p2⟩

theorem parse_cls {s : List Byte} {t : Ast} {i j : Nat} {g g' : Groups} {c1 c2 : List Rng → List Byte → Prop} {r : Rng → Bool}
    (hc : ∀ rl bs, rl.all r = true → c1 rl bs → c2 rl bs) (h : Parse c1 s t i g j g') : Ok r t = true → Parse c2 s t i g j g' := by
  induction h with
  | chr h => intro _; exact .chr h
  | ranges h1 h2 =>
    intro hok
    simp only [Ok, Bool.and_eq_true] at hok
    exact .ranges (hc _ _ hok.2 h1) h2
  | cat _ _ ih1 ih2 => intro hok; simp only [Ok, Bool.and_eq_true] at hok; exact .cat (ih1 hok.1) (ih2 hok.2)
  | altl _ ih => intro hok; simp only [Ok, Bool.and_eq_true] at hok; exact .altl (ih hok.1)
  | altr _ ih => intro hok; simp only [Ok, Bool.and_eq_true] at hok; exact .altr (ih hok.2)
  | star0 => intro _; exact .star0
  | star1 _ _ ih1 ih2 => intro hok; have h := hok; simp only [Ok, Bool.and_eq_true] at h; exact .star1 (ih1 h.1) (ih2 hok)
  | plus _ _ ih1 ih2 => intro hok; have h := hok; simp only [Ok, Bool.and_eq_true] at h; exact .plus (ih1 h.1) (ih2 hok)
  | quest0 => intro _; exact .quest0
  | quest1 _ ih => intro hok; exact .quest1 (ih hok)
  | cap _ ih => intro hok; simp only [Ok, Bool.and_eq_true] at hok; exact .cap (ih hok.2)
  | bol h => intro _; exact .bol h
  | eol h => intro _; exact .eol h

theorem ok_valid (t : Ast) (h : Ok okRng t = true) : Ok validRng t = true := by
  induction t with
  | ranges rl =>
    simp only [Ok, Bool.and_eq_true, List.all_eq_true] at h ⊢
    refine ⟨h.1, fun r hr => ?_⟩
    have := h.2 r hr
    simp only [okRng, validRng, Bool.and_eq_true, decide_eq_true_eq] at this ⊢
    exact this.1
  | _ => simp only [Ok, Bool.and_eq_true] at h ⊢ <;> grind

/-- Compiling a tree. -/
theorem genall_ok (t : Ast) (h : Ok validRng t = true) : ∃ N, ∀ fuel, N ≤ fuel →
    ∃ q, genall fuel t = .ok (prog q) ∧ Body t 1 q := by
  obtain ⟨N, hN⟩ := gen_ok t h
  refine ⟨N, fun fuel hf => ?_⟩
  obtain ⟨q, e, hb⟩ := hN fuel hf [.lbra 0]
  refine ⟨q, ?_, by simpa using hb⟩
  unfold genall
  simp only [append, List.nil_append, e, Res.bind_ok, Res.pure_eq]
  simp [prog]

/-- Running a compiled tree. -/
theorem exec_ok {t : Ast} {q : List Inst} (h : Ok validRng t = true) (hb : Body t 1 q) (hs : (prog q).length ≤ 2 ^ 30)
    (nm : Nat) (hnm : nm ≤ 16) (s : List Byte) (whole : Bool) :
    ∃ N, ∀ fuel, N ≤ fuel → ∃ vm, run { code := (prog q).map encinst, nmatch := nm } fuel Obj.fresh s whole = .ok vm ∧ vm.tail = .nil ∧
      Answer s (fun j g => Parse BoxCls s (.cap 0 t) 0 .none j g) whole vm.best ∧ (vm.best = none → vm.nthr = 0) := by
  have := run_spec (prog_wf (body_loc t h hb (by omega)) hs) (prog_fin h hb) (by simp [prog]) nm hnm s whole
  simpa only [prog_hit hb] using this

end Verif.Regex
