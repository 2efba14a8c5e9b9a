import Verif.Flatten.Sim

/-!
# The flattened code does what the statement does
-/

namespace Verif.Flatten

open Spec (St Sem Expr Stmt ev rd wr plain nopost Safe SafeS SafeOpt place Ev whole wholeOpt incs exec rounds Out)

/-! ## Labels of statements -/

theorem Lab.nil {k n : Nat} : Lab k n [] := ⟨fun L h => absurd h (by simp), by simp⟩

theorem bnd_expr (e : Expr) (k : Nat) : k ≤ (flatExpr e k).2 ∧ Lab k (flatExpr e k).2 (flatExpr e k).1 := by
  have h := (bnd e).1 k
  refine ⟨h.1, ?_⟩
  have h2 := h.2
  unfold Lab at *
  simpa [flatExpr] using h2

theorem bnd_opt (e : Option Expr) (k : Nat) : k ≤ (flatOpt e k).2 ∧ Lab k (flatOpt e k).2 (flatOpt e k).1 := by
  cases e with
  | none => exact ⟨Nat.le_refl k, .nil⟩
  | some e => exact bnd_expr e k

theorem labels_condTree (t : Tree) (l1 l2 : Nat) (a : List I) : labels (condTree t l1 l2 :: a) = labels a := by
  fun_induction condTree t l1 l2 with
  | case1 l1 l2 t ih => exact ih
  | case2 => rfl

theorem bnd_if (c : Expr) (k l1 l2 : Nat) :
    k ≤ (flatIfCond c k l1 l2).2 ∧ Lab k (flatIfCond c k l1 l2).2 (flatIfCond c k l1 l2).1 := by
  have h := (bnd c).1 k
  unfold flatIfCond
  dsimp only
  split
  · refine ⟨Nat.le_succ_of_le h.1, ?_⟩
    have e : labels (((flat c).1 k).code ++ [I.set ((flat c).1 k).nxt ((flat c).1 k).tree,
        .eval (.tmp ((flat c).1 k).nxt)] ++ drain ((flat c).1 k).q ++ [condTree (.tmp ((flat c).1 k).nxt) l1 l2]) =
        labels ((flat c).1 k).code := by
      simp [labels_condTree]
    unfold Lab
    rw [e]
    exact ⟨fun L hL => ⟨(h.2.1 L hL).1, Nat.lt_succ_of_lt (h.2.1 L hL).2⟩, h.2.2⟩
  · refine ⟨h.1, ?_⟩
    unfold Lab
    rw [labels_append, labels_condTree, labels_nil, List.append_nil]
    exact h.2

/-- Labels of an `if`. -/
theorem lab_if {k a b c : Nat} {D S T e : List I} (hD : Lab (k + 3) a D) (hS : Lab a b S) (hT : Lab b c T) (h1 : k + 3 ≤ a)
    (h2 : a ≤ b) (h3 : b ≤ c) (he : labels e = []) :
    Lab k c (D ++ .lbl k :: S ++ [.jmp (k + 2), .lbl (k + 1)] ++ T ++ e ++ [.lbl (k + 2)]) := by
  obtain ⟨d1, d2⟩ := hD
  obtain ⟨s1, s2⟩ := hS
  obtain ⟨t1, t2⟩ := hT
  constructor
  · intro L hL
    simp [he] at hL
    rcases hL with h | h | h | h | h | h
    · have := d1 L h; omega
    · omega
    · have := s1 L h; omega
    · omega
    · have := t1 L h; omega
    · omega
  · simp [he]
    simp only [List.nodup_append, List.nodup_cons, List.mem_append, List.mem_cons, List.not_mem_nil, or_false]
    refine ⟨d2, ⟨?_, s2, ⟨?_, t2, by simp, ?_⟩, ?_⟩, ?_⟩
    · rintro (h | h | h | h)
      · have := s1 _ h; omega
      · omega
      · have := t1 _ h; omega
      · omega
    · rintro (h | h)
      · have := t1 _ h; omega
      · omega
    · intro x hx y hy
      have := t1 x hx; omega
    · intro x hx y hy
      have := s1 x hx
      rcases hy with rfl | hy | rfl
      · omega
      · have := t1 y hy; omega
      · omega
    · intro x hx y hy
      have := d1 x hx
      rcases hy with rfl | hy | rfl | hy | rfl
      · omega
      · have := s1 y hy; omega
      · omega
      · have := t1 y hy; omega
      · omega

/-- Labels of a loop. -/
theorem lab_loop {k a b c d : Nat} {Ii B S D q : List I} (hI : Lab (k + 5) a Ii) (hB : Lab a b B) (hS : Lab b c S)
    (hD : Lab c d D) (h1 : k + 5 ≤ a) (h2 : a ≤ b) (h3 : b ≤ c) (h4 : c ≤ d) (hq : labels q = []) :
    Lab k d (Ii ++ [.jmp (k + 2), .lbl k] ++ B ++ [.lbl (k + 3)] ++ S ++ [.lbl (k + 2)] ++ D ++ [.lbl (k + 1)] ++ q ++
      [.jmp k, .lbl (k + 4)]) := by
  obtain ⟨i1, i2⟩ := hI
  obtain ⟨b1, b2⟩ := hB
  obtain ⟨s1, s2⟩ := hS
  obtain ⟨d1, d2⟩ := hD
  constructor
  · intro L hL
    simp [hq] at hL
    rcases hL with h | h | h | h | h | h | h | h | h
    · have := i1 L h; omega
    · omega
    · have := b1 L h; omega
    · omega
    · have := s1 L h; omega
    · omega
    · have := d1 L h; omega
    · omega
    · omega
  · simp [hq]
    simp only [List.nodup_append, List.nodup_cons, List.mem_append, List.mem_cons, List.not_mem_nil, or_false]
    refine ⟨i2, ⟨?_, b2, ⟨?_, s2, ⟨?_, d2, by simp, ?_⟩, ?_⟩, ?_⟩, ?_⟩
    · rintro (h | h | h | h | h | h | h)
      · have := b1 _ h; omega
      · omega
      · have := s1 _ h; omega
      · omega
      · have := d1 _ h; omega
      · omega
      · omega
    · rintro (h | h | h | h | h)
      · have := s1 _ h; omega
      · omega
      · have := d1 _ h; omega
      · omega
      · omega
    · rintro (h | h | h)
      · have := d1 _ h; omega
      · omega
      · omega
    · intro x hx y hy
      have := d1 x hx; omega
    · intro x hx y hy
      have := s1 x hx
      rcases hy with rfl | hy | rfl | rfl
      · omega
      · have := d1 y hy; omega
      · omega
      · omega
    · intro x hx y hy
      have := b1 x hx
      rcases hy with rfl | hy | rfl | hy | rfl | rfl
      · omega
      · have := s1 y hy; omega
      · omega
      · have := d1 y hy; omega
      · omega
      · omega
    · intro x hx y hy
      have := i1 x hx
      rcases hy with rfl | hy | rfl | hy | rfl | hy | rfl | rfl
      · omega
      · have := b1 y hy; omega
      · omega
      · have := s1 y hy; omega
      · omega
      · have := d1 y hy; omega
      · omega
      · omega

theorem bnd_S (s : Stmt) : ∀ lb lc k, k ≤ (flatS s lb lc k).2 ∧ Lab k (flatS s lb lc k).2 (flatS s lb lc k).1 := by
  induction s with
  | skip => intro lb lc k; exact ⟨Nat.le_refl k, .nil⟩
  | expr e => intro lb lc k; exact bnd_expr e k
  | assign o a e =>
    intro lb lc k
    have h1 := (bnd a).1 k
    have h2 := (bnd e).1 ((flat a).1 k).nxt
    have h3 := h1.2.append h2.2 h1.1 h2.1
    cases o with
    | none =>
      refine ⟨Nat.le_trans h1.1 h2.1, ?_⟩
      unfold Lab at *
      simpa [flatS] using h3
    | some o =>
      refine ⟨Nat.le_trans h1.1 h2.1, ?_⟩
      unfold Lab at *
      simpa [flatS] using h3
  | seq s t ihs iht =>
    intro lb lc k
    have h1 := ihs lb lc k
    have h2 := iht lb lc (flatS s lb lc k).2
    exact ⟨Nat.le_trans h1.1 h2.1, h1.2.append h2.2 h1.1 h2.1⟩
  | ite c s t ihs iht =>
    intro lb lc k
    have h1 := bnd_if c (k + 3) k (k + 1)
    have h2 := ihs lb lc (flatIfCond c (k + 3) k (k + 1)).2
    have h3 := iht lb lc (flatS s lb lc (flatIfCond c (k + 3) k (k + 1)).2).2
    refine ⟨by simp only [flatS]; omega, lab_if h1.2 h2.2 h3.2 h1.1 h2.1 h3.1 ?_⟩
    unfold toEnd
    split <;> rfl
  | loop i c st b ih =>
    intro lb lc k
    have h1 := bnd_opt i (k + 5)
    have h2 := ih (k + 4) (k + 3) (flatOpt i (k + 5)).2
    have h3 := bnd_opt st (flatS b (k + 4) (k + 3) (flatOpt i (k + 5)).2).2
    have h4 := (bnd c).2 (flatOpt st (flatS b (k + 4) (k + 3) (flatOpt i (k + 5)).2).2).2 (k + 1) (k + 4)
    refine ⟨by simp only [flatS]; omega, lab_loop h1.2 h2.2 h3.2 h4.2 h1.1 h2.1 h3.1 h4.1 (by simp)⟩
  | brk => intro lb lc k; exact ⟨Nat.le_refl k, by simp [flatS, Lab]⟩
  | cnt => intro lb lc k; exact ⟨Nat.le_refl k, by simp [flatS, Lab]⟩
  | ret e =>
    intro lb lc k
    have h := (bnd e).1 k
    refine ⟨h.1, ?_⟩
    have h2 := h.2
    unfold Lab at *
    simpa [flatS] using h2

/-! ## Steps of statements -/

theorem drain_steps (M : Sem) (prog post : List I) (τ : Nat → Int) (q : List (Tree × Bool)) : ∀ (p : List (Int × Bool)) (σ : St),
    (∀ σ1, q.map (fun x => (tev M x.1 σ1 τ, x.2)) = p) →
    Steps M prog q.length ⟨drain q ++ post, σ, τ⟩ ⟨post, incs M p σ, τ⟩ := by
  induction q with
  | nil =>
    intro p σ h
    have := h σ
    subst this
    exact .refl _
  | cons x q ih =>
    intro p σ h
    have h0 := h σ
    rw [List.map_cons] at h0
    subst h0
    simp only [incs]
    refine .step (b := ⟨drain q ++ post, Spec.set σ (tev M x.1 σ τ) (M.inc x.2 (σ (tev M x.1 σ τ))), τ⟩) rfl ?_
    refine ih _ _ (fun σ1 => ?_)
    have := h σ1
    rw [List.map_cons] at this
    injection this

theorem Qok.all {M : Sem} {q k n τ p} (h : Qok M q k n τ p) : ∀ σ1, q.map (fun x => (tev M x.1 σ1 τ, x.2)) = p :=
  fun σ1 => h σ1 τ (fun _ _ _ => rfl)

theorem expr_steps (M : Sem) (e : Expr) (h : Safe e) (k : Nat) (prog pre post : List I) (σ : St) (τ : Nat → Int)
    (hp : prog = pre ++ ((flatExpr e k).1 ++ post)) (hn : (labels prog).Nodup) :
    ∃ n τ', Steps M prog n ⟨(flatExpr e k).1 ++ post, σ, τ⟩ ⟨post, (whole M e σ).2, τ'⟩ := by
  simp only [flatExpr, List.append_assoc, List.cons_append] at hp ⊢
  obtain ⟨n, τ', h1, h2, h3, h4⟩ := (good M e h).1 k prog pre _ σ τ hp hn
  exact ⟨_, τ', h1.trans (.step rfl (drain_steps M prog post τ' _ _ _ h4.all))⟩

theorem opt_steps (M : Sem) (e : Option Expr) (h : SafeOpt e) (k : Nat) (prog pre post : List I) (σ : St) (τ : Nat → Int)
    (hp : prog = pre ++ ((flatOpt e k).1 ++ post)) (hn : (labels prog).Nodup) :
    ∃ n τ', Steps M prog n ⟨(flatOpt e k).1 ++ post, σ, τ⟩ ⟨post, wholeOpt M e σ, τ'⟩ := by
  cases e with
  | none => exact ⟨0, τ, .refl _⟩
  | some e => exact expr_steps M e h k prog pre post σ τ hp hn

theorem condTree_step (M : Sem) (prog : List I) (t : Tree) (l1 l2 : Nat) (r1 r2 post : List I) (σ : St) (τ : Nat → Int)
    (h1 : find l1 prog = some r1) (h2 : find l2 prog = some r2) :
    step M prog ⟨condTree t l1 l2 :: post, σ, τ⟩ = some ⟨if tev M t σ τ ≠ 0 then r1 else r2, σ, τ⟩ := by
  fun_induction condTree t l1 l2 generalizing r1 r2 with
  | case1 t l1 l2 ih =>
    rw [ih r2 r1 h2 h1]
    simp only [tev, Spec.truth]
    by_cases hv : tev M t σ τ = 0 <;> simp [hv]
  | case2 t l1 l2 _ =>
    simp only [step]
    by_cases hv : tev M t σ τ = 0 <;> simp [hv, h1, h2]

theorem if_steps (M : Sem) (c : Expr) (h : Safe c) (k l1 l2 : Nat) (prog pre post r1 r2 : List I) (σ : St) (τ : Nat → Int)
    (hp : prog = pre ++ ((flatIfCond c k l1 l2).1 ++ post)) (hn : (labels prog).Nodup)
    (f1 : find l1 prog = some r1) (f2 : find l2 prog = some r2) :
    ∃ n τ', Steps M prog n ⟨(flatIfCond c k l1 l2).1 ++ post, σ, τ⟩
      ⟨if (whole M c σ).1 ≠ 0 then r1 else r2, (whole M c σ).2, τ'⟩ := by
  unfold flatIfCond at hp ⊢
  dsimp only at hp ⊢
  split
  · rename_i hq
    rw [if_pos hq] at hp
    simp only [List.append_assoc, List.cons_append, List.nil_append] at hp ⊢
    obtain ⟨n, τ', h1, h2, h3, h4⟩ := (good M c h).1 k prog pre _ σ τ hp hn
    have hd := drain_steps M prog (condTree (.tmp ((flat c).1 k).nxt) l1 l2 :: post)
      (setT τ' ((flat c).1 k).nxt (ev M c σ).v) ((flat c).1 k).q (ev M c σ).p (ev M c σ).σ
      (fun σ1 => h4 σ1 _ (fun i hi hj => by rw [setT, if_neg (by omega)]))
    have hc := condTree_step M prog (.tmp ((flat c).1 k).nxt) l1 l2 r1 r2 post (incs M (ev M c σ).p (ev M c σ).σ)
      (setT τ' ((flat c).1 k).nxt (ev M c σ).v) f1 f2
    rw [show tev M (.tmp ((flat c).1 k).nxt) (incs M (ev M c σ).p (ev M c σ).σ)
      (setT τ' ((flat c).1 k).nxt (ev M c σ).v) = (ev M c σ).v by simp [tev, setT]] at hc
    refine ⟨_, _, h1.trans (.step (b := ⟨.eval (.tmp ((flat c).1 k).nxt) :: (drain ((flat c).1 k).q ++
      condTree (.tmp ((flat c).1 k).nxt) l1 l2 :: post), (ev M c σ).σ, setT τ' ((flat c).1 k).nxt (ev M c σ).v⟩) ?_
      (.step rfl (hd.trans (.one hc))))⟩
    simp only [step, h3]
  · rename_i hq
    rw [if_neg hq] at hp
    simp only [List.append_assoc, List.cons_append, List.nil_append] at hp ⊢
    obtain ⟨n, τ', h1, h2, h3, h4⟩ := (good M c h).1 k prog pre _ σ τ hp hn
    have hc := condTree_step M prog ((flat c).1 k).tree l1 l2 r1 r2 post (ev M c σ).σ τ' f1 f2
    rw [h3] at hc
    have hp0 : (ev M c σ).p = [] := by
      have := h4.all σ
      rw [not_ne_iff.1 hq] at this
      exact this.symm
    refine ⟨n + 1, τ', ?_⟩
    unfold whole
    rw [hp0]
    exact h1.trans (.one hc)

theorem jmp_step {M : Sem} {prog is r : List I} {L : Nat} {σ : St} {τ : Nat → Int} (h : find L prog = some r) :
    Steps M prog 1 ⟨.jmp L :: is, σ, τ⟩ ⟨r, σ, τ⟩ := by
  refine .one ?_
  simp only [step, h]
  rfl

/-- What running the code from `c` on does, if the statement ends as `o`: `post` is what comes after it, `lb` and `lc`
are the labels for breaking and continuing; if the statement does not end within `n` rounds, more steps than that. -/
def Does (M : Sem) (prog : List I) (n : Nat) (c : Cfg) (post : List I) (lb lc : Nat) : Option Out → Prop
  | none => ∃ m c', n ≤ m ∧ Steps M prog m c c'
  | some (.norm σ) => ∃ m τ, Steps M prog m c ⟨post, σ, τ⟩
  | some (.brk σ) => ∀ r, find lb prog = some r → ∃ m τ, Steps M prog m c ⟨r, σ, τ⟩
  | some (.cnt σ) => ∀ r, find lc prog = some r → ∃ m τ, Steps M prog m c ⟨r, σ, τ⟩
  | some (.ret v σ) => ∃ m τ r, Steps M prog m c ⟨.ret :: r, σ, τ⟩ ∧ τ tret = v

theorem Does.after {M : Sem} {prog : List I} {n m : Nat} {c c' : Cfg} {post : List I} {lb lc : Nat} {o : Option Out}
    (h : Steps M prog m c c') (h' : Does M prog n c' post lb lc o) : Does M prog n c post lb lc o := by
  cases o with
  | none =>
    obtain ⟨j, d, h1, h2⟩ := h'
    exact ⟨m + j, d, by omega, h.trans h2⟩
  | some o =>
    cases o with
    | norm σ =>
      obtain ⟨j, τ, h2⟩ := h'
      exact ⟨_, τ, h.trans h2⟩
    | brk σ =>
      intro r hr
      obtain ⟨j, τ, h2⟩ := h' r hr
      exact ⟨_, τ, h.trans h2⟩
    | cnt σ =>
      intro r hr
      obtain ⟨j, τ, h2⟩ := h' r hr
      exact ⟨_, τ, h.trans h2⟩
    | ret v σ =>
      obtain ⟨j, τ, r, h2, h3⟩ := h'
      exact ⟨_, τ, r, h.trans h2, h3⟩

/-- The statement is right. -/
def SGood (M : Sem) (n : Nat) (s : Stmt) : Prop :=
  ∀ lb lc k prog pre post σ τ, 1 ≤ k → prog = pre ++ ((flatS s lb lc k).1 ++ post) → (labels prog).Nodup →
    Does M prog n ⟨(flatS s lb lc k).1 ++ post, σ, τ⟩ post lb lc (exec M n s σ)

/-- The rounds of a loop, from its condition on. -/
theorem rounds_good (M : Sem) (N : Nat) (c : Expr) (st : Option Expr) (b : Stmt) (hc : Safe c) (hnp : nopost c)
    (hst : SafeOpt st) (hb : SGood M N b) (k kB kS kD : Nat) (prog pre post B S : List I) (D : C)
    (hB : (flatS b (k + 4) (k + 3) kB).1 = B) (hkB : 1 ≤ kB) (hS : (flatOpt st kS).1 = S)
    (hD : (flat c).2 kD (k + 1) (k + 4) = D)
    (hp : prog = pre ++ (.lbl k :: (B ++ (.lbl (k + 3) :: (S ++ (.lbl (k + 2) :: (D.code ++ (.lbl (k + 1) :: (drain D.q ++
      (.jmp k :: .lbl (k + 4) :: post))))))))))
    (hn : (labels prog).Nodup) (lb lc : Nat) (n : Nat) : ∀ σ τ, n ≤ N →
    Does M prog n ⟨D.code ++ (.lbl (k + 1) :: (drain D.q ++ (.jmp k :: .lbl (k + 4) :: post))), σ, τ⟩ post lb lc
      (rounds M c st (exec M N b) n σ) := by
  have f0 := find_at' (L := k) hn pre _ hp
  have f1 := find_at' (L := k + 1) hn
    (pre ++ (.lbl k :: (B ++ (.lbl (k + 3) :: (S ++ (.lbl (k + 2) :: D.code))))))
    (drain D.q ++ (.jmp k :: .lbl (k + 4) :: post)) (by rw [hp]; simp)
  have f3 := find_at' (L := k + 3) hn (pre ++ (.lbl k :: B)) _ (by rw [hp]; simp; rfl)
  have f4 := find_at' (L := k + 4) hn
    (pre ++ (.lbl k :: (B ++ (.lbl (k + 3) :: (S ++ (.lbl (k + 2) :: (D.code ++ (.lbl (k + 1) :: (drain D.q ++ [.jmp k])))))))))
    post (by rw [hp]; simp)
  have hq : D.q = [] := by rw [← hD]; exact (nopost_flat M c hnp).2.1 _ _ _
  have hwhole : ∀ σ, whole M c σ = ((ev M c σ).v, (ev M c σ).σ) := by
    intro σ
    unfold whole
    rw [(nopost_flat M c hnp).2.2]
    rfl
  induction n with
  | zero => intro σ τ _; exact ⟨0, _, Nat.le_refl 0, .refl _⟩
  | succ n ih =>
    intro σ τ hN
    obtain ⟨m, τ1, h1, h2, h3⟩ := (good M c hc).2 kD (k + 1) (k + 4) prog
      (pre ++ (.lbl k :: (B ++ (.lbl (k + 3) :: (S ++ [.lbl (k + 2)]))))) _ _ _ σ τ
      (by rw [hp, hD]; simp; rfl) hn f1 f4
    rw [hD] at h1 h2 h3
    simp only [rounds, hwhole]
    by_cases hv : (ev M c σ).v ≠ 0
    · rw [if_pos hv] at h1 ⊢
      rw [hq] at h1
      have hjmp : Steps M prog (m + 1) ⟨D.code ++ (.lbl (k + 1) :: (drain D.q ++ (.jmp k :: .lbl (k + 4) :: post))), σ, τ⟩
          ⟨B ++ (.lbl (k + 3) :: (S ++ (.lbl (k + 2) :: (D.code ++ (.lbl (k + 1) :: (drain D.q ++
            (.jmp k :: .lbl (k + 4) :: post))))))), (ev M c σ).σ, τ1⟩ := by
        rw [hq]
        rw [hq] at f0
        refine h1.trans (.one ?_)
        show (find k prog).map _ = _
        rw [f0]
        rfl
      have hbody := hb (k + 4) (k + 3) kB prog (pre ++ [.lbl k]) (.lbl (k + 3) :: (S ++ (.lbl (k + 2) :: (D.code ++
        (.lbl (k + 1) :: (drain D.q ++ (.jmp k :: .lbl (k + 4) :: post))))))) (ev M c σ).σ τ1 hkB
        (by rw [hp, hB]; simp) hn
      rw [hB] at hbody
      -- what happens after the body
      have next : ∀ σ' m' τ' r, Steps M prog m' ⟨B ++ (.lbl (k + 3) :: (S ++ (.lbl (k + 2) :: (D.code ++ (.lbl (k + 1) ::
            (drain D.q ++ (.jmp k :: .lbl (k + 4) :: post))))))), (ev M c σ).σ, τ1⟩ ⟨r, σ', τ'⟩ →
          (r = .lbl (k + 3) :: (S ++ (.lbl (k + 2) :: (D.code ++ (.lbl (k + 1) :: (drain D.q ++
            (.jmp k :: .lbl (k + 4) :: post)))))) ∨
           r = S ++ (.lbl (k + 2) :: (D.code ++ (.lbl (k + 1) :: (drain D.q ++ (.jmp k :: .lbl (k + 4) :: post)))))) →
          Does M prog (n + 1) ⟨D.code ++ (.lbl (k + 1) :: (drain D.q ++ (.jmp k :: .lbl (k + 4) :: post))), σ, τ⟩ post lb lc
            (rounds M c st (exec M N b) n (wholeOpt M st σ')) := by
        intro σ' m' τ' r hr hrr
        obtain ⟨m2, τ2, g1⟩ := opt_steps M st hst kS prog (pre ++ (.lbl k :: (B ++ [.lbl (k + 3)])))
          (.lbl (k + 2) :: (D.code ++ (.lbl (k + 1) :: (drain D.q ++ (.jmp k :: .lbl (k + 4) :: post))))) σ' τ'
          (by rw [hp, hS]; simp) hn
        rw [hS] at g1
        have hto : ∃ j, Steps M prog j ⟨r, σ', τ'⟩ ⟨D.code ++ (.lbl (k + 1) :: (drain D.q ++
            (.jmp k :: .lbl (k + 4) :: post))), wholeOpt M st σ', τ2⟩ := by
          rcases hrr with rfl | rfl
          · exact ⟨_, .step rfl (g1.trans (.one rfl))⟩
          · exact ⟨_, g1.trans (.one rfl)⟩
        obtain ⟨j, hj⟩ := hto
        have := ih (wholeOpt M st σ') τ2 (by omega)
        have hall := (hjmp.trans (hr.trans hj))
        revert this
        generalize rounds M c st (exec M N b) n (wholeOpt M st σ') = o
        intro this
        cases o with
        | none =>
          obtain ⟨i, d, e1, e2⟩ := this
          exact ⟨_, d, by omega, hall.trans e2⟩
        | some o =>
          cases o with
          | norm σ'' => exact Does.after (o := some (.norm σ'')) hall this
          | brk σ'' => exact Does.after (o := some (.brk σ'')) hall this
          | cnt σ'' => exact Does.after (o := some (.cnt σ'')) hall this
          | ret v σ'' => exact Does.after (o := some (.ret v σ'')) hall this
      revert hbody
      generalize exec M N b (ev M c σ).σ = o
      intro hbody
      cases o with
      | none =>
        obtain ⟨i, d, e1, e2⟩ := hbody
        exact ⟨_, d, by omega, hjmp.trans e2⟩
      | some o =>
        cases o with
        | norm σ' =>
          obtain ⟨i, τ2, e2⟩ := hbody
          exact next σ' i τ2 _ e2 (.inl rfl)
        | brk σ' =>
          obtain ⟨i, τ2, e2⟩ := hbody _ f4
          exact ⟨_, τ2, hjmp.trans e2⟩
        | cnt σ' =>
          obtain ⟨i, τ2, e2⟩ := hbody _ f3
          exact next σ' i τ2 _ e2 (.inr rfl)
        | ret v σ' =>
          obtain ⟨i, τ2, r, e2, e3⟩ := hbody
          exact ⟨_, τ2, r, hjmp.trans e2, e3⟩
    · rw [if_neg hv] at h1 ⊢
      exact ⟨m, τ1, h1⟩

theorem good_S (M : Sem) (n : Nat) (s : Stmt) (h : SafeS s) : SGood M n s := by
  induction s with
  | skip => intro lb lc k prog pre post σ τ _ _ _; exact ⟨0, τ, .refl _⟩
  | expr e => intro lb lc k prog pre post σ τ _ hp hn; exact expr_steps M e h k prog pre post σ τ hp hn
  | assign o a e =>
    intro lb lc k prog pre post σ τ hk hp hn
    obtain ⟨ha, he, hs, hst⟩ := h
    show ∃ m τ', Steps M prog m _ ⟨post, incs M _ _, τ'⟩
    have dr : ∀ (τ' : Nat → Int), Qok M (((flat a).1 k).q ++ ((flat e).1 ((flat a).1 k).nxt).q) k
        ((flat e).1 ((flat a).1 k).nxt).nxt τ' ((ev M e σ).p ++ (ev M a (ev M e σ).σ).p) → ∀ σ',
        ∃ j, Steps M prog j ⟨drain (((flat a).1 k).q ++ ((flat e).1 ((flat a).1 k).nxt).q) ++ post, σ', τ'⟩
          ⟨post, incs M ((ev M e σ).p ++ (ev M a (ev M e σ).σ).p) σ', τ'⟩ := fun τ' hq σ' =>
      ⟨_, drain_steps M prog post τ' _ _ σ' hq.all⟩
    cases o with
    | none =>
      simp only [flatS, List.append_assoc, List.cons_append, List.nil_append] at hp ⊢
      obtain ⟨m, τ', h1, h2, h3, h4, h5⟩ := rightFirst (good M a ha).1 (good M e he).1 hs k prog pre _ σ τ hp hn
      obtain ⟨j, hj⟩ := dr τ' h5 (Spec.set (ev M a (ev M e σ).σ).σ (ev M a (ev M e σ).σ).v (ev M e σ).v)
      refine ⟨_, τ', h1.trans (.step (b := ⟨.eval (.load ((flat a).1 k).tree) ::
        (drain (((flat a).1 k).q ++ ((flat e).1 ((flat a).1 k).nxt).q) ++ post),
        Spec.set (ev M a (ev M e σ).σ).σ (ev M a (ev M e σ).σ).v (ev M e σ).v, τ'⟩) ?_ (.step rfl hj))⟩
      simp only [step, h3, h4]
    | some o =>
      simp only [flatS, List.append_assoc, List.cons_append, List.nil_append] at hp ⊢
      obtain ⟨m, τ', h1, h2, h3, h4, h5⟩ := rightFirst (good M a ha).1 (good M e he).1 hs k prog pre _ σ τ hp hn
      obtain ⟨j, hj⟩ := dr τ' h5 (Spec.set (ev M a (ev M e σ).σ).σ (ev M a (ev M e σ).σ).v
        (M.op o ((ev M a (ev M e σ).σ).σ (ev M a (ev M e σ).σ).v) (ev M e σ).v))
      refine ⟨_, τ', h1.trans (.step (b := ⟨_, _, τ'⟩) ?_ hj)⟩
      simp only [step, tev, h3, h4]
  | seq s t ihs iht =>
    intro lb lc k prog pre post σ τ hk hp hn
    simp only [flatS, List.append_assoc] at hp ⊢
    have h1 := ihs h.1 lb lc k prog pre _ σ τ hk hp hn
    have b1 := (bnd_S s lb lc k).1
    simp only [exec]
    revert h1
    generalize exec M n s σ = o
    intro h1
    cases o with
    | none => exact h1
    | some o =>
      cases o with
      | norm σ' =>
        obtain ⟨m, τ', h1⟩ := h1
        exact Does.after h1 (iht h.2 lb lc (flatS s lb lc k).2 prog (pre ++ (flatS s lb lc k).1) post σ' τ' (by omega)
          (by rw [hp]; simp) hn)
      | brk σ' => exact h1
      | cnt σ' => exact h1
      | ret v σ' => exact h1
  | ite c s t ihs iht =>
    intro lb lc k prog pre post σ τ hk hp hn
    have b1 := (bnd_if c (k + 3) k (k + 1)).1
    have b2 := (bnd_S s lb lc (flatIfCond c (k + 3) k (k + 1)).2).1
    simp only [flatS] at hp ⊢
    generalize hD : flatIfCond c (k + 3) k (k + 1) = D at *
    generalize hS : flatS s lb lc D.2 = S at *
    generalize hT : flatS t lb lc S.2 = T at *
    generalize hE : toEnd t (k + 2) = E at *
    have hE' : E = [] ∨ E = [.jmp (k + 2)] := by
      rw [← hE]
      unfold toEnd
      split
      · exact .inl rfl
      · exact .inr rfl
    simp only [List.append_assoc, List.cons_append, List.nil_append] at hp ⊢
    have f1 := find_at' (L := k) hn (pre ++ D.1) _ (by rw [hp]; simp; rfl)
    have f2 := find_at' (L := k + 1) hn (pre ++ D.1 ++ .lbl k :: S.1 ++ [.jmp (k + 2)]) _ (by rw [hp]; simp; rfl)
    have f3 := find_at' (L := k + 2) hn
      (pre ++ D.1 ++ .lbl k :: S.1 ++ [.jmp (k + 2), .lbl (k + 1)] ++ T.1 ++ E) post (by rw [hp]; simp)
    obtain ⟨m, τ', h1⟩ := if_steps M c h.1 (k + 3) k (k + 1) prog pre _ _ _ σ τ (by rw [hp, hD]) hn f1 f2
    rw [hD] at h1
    refine Does.after h1 ?_
    simp only [exec]
    by_cases hv : (whole M c σ).1 ≠ 0
    · rw [if_pos hv, if_pos hv]
      have h2 := ihs h.2.1 lb lc D.2 prog (pre ++ D.1 ++ [.lbl k]) _ (whole M c σ).2 τ' (by omega)
        (by rw [hp, hS]; simp; rfl) hn
      rw [hS] at h2
      revert h2
      generalize exec M n s (whole M c σ).2 = o
      intro h2
      cases o with
      | none => exact h2
      | some o =>
        cases o with
        | norm σ' =>
          obtain ⟨m2, τ2, h2⟩ := h2
          refine ⟨_, τ2, h2.trans (.one ?_)⟩
          simp only [step, f3]
          rfl
        | brk σ' => exact h2
        | cnt σ' => exact h2
        | ret v σ' => exact h2
    · rw [if_neg hv, if_neg hv]
      have h2 := iht h.2.2 lb lc S.2 prog (pre ++ D.1 ++ .lbl k :: S.1 ++ [.jmp (k + 2), .lbl (k + 1)]) _
        (whole M c σ).2 τ' (by omega) (by rw [hp, hT]; simp; rfl) hn
      rw [hT] at h2
      revert h2
      generalize exec M n t (whole M c σ).2 = o
      intro h2
      cases o with
      | none => exact h2
      | some o =>
        cases o with
        | norm σ' =>
          obtain ⟨m2, τ2, h2⟩ := h2
          rcases hE' with rfl | rfl
          · exact ⟨_, τ2, h2.trans (.one rfl)⟩
          · refine ⟨_, τ2, h2.trans (.one ?_)⟩
            simp only [step, f3, List.cons_append]
            rfl
        | brk σ' => exact h2
        | cnt σ' => exact h2
        | ret v σ' => exact h2
  | loop i c st b ih =>
    intro lb lc k prog pre post σ τ hk hp hn
    obtain ⟨h1, h2, h3, h4, h5⟩ := h
    simp only [flatS, List.append_assoc, List.cons_append, List.nil_append] at hp ⊢
    have bi := (bnd_opt i (k + 5)).1
    obtain ⟨m, τ', g1⟩ := opt_steps M i h1 (k + 5) prog pre _ σ τ hp hn
    refine Does.after g1 ?_
    have f2 := find_at' (L := k + 2) hn (pre ++ ((flatOpt i (k + 5)).1 ++ .jmp (k + 2) :: .lbl k ::
      ((flatS b (k + 4) (k + 3) (flatOpt i (k + 5)).2).1 ++ .lbl (k + 3) ::
        (flatOpt st (flatS b (k + 4) (k + 3) (flatOpt i (k + 5)).2).2).1))) _ (by rw [hp]; simp; rfl)
    refine Does.after (jmp_step f2) ?_
    simp only [exec]
    exact rounds_good M n c st b h2 h3 h4 (ih h5) k (flatOpt i (k + 5)).2
        (flatS b (k + 4) (k + 3) (flatOpt i (k + 5)).2).2 _ prog (pre ++ ((flatOpt i (k + 5)).1 ++ [.jmp (k + 2)])) post
        _ _ _ rfl (by omega) rfl rfl (by rw [hp]; simp) hn lb lc n _ τ' (Nat.le_refl n)
  | brk =>
    intro lb lc k prog pre post σ τ hk hp hn r hr
    refine ⟨1, τ, .one ?_⟩
    simp only [flatS, List.cons_append, step, hr]
    rfl
  | cnt =>
    intro lb lc k prog pre post σ τ hk hp hn r hr
    refine ⟨1, τ, .one ?_⟩
    simp only [flatS, List.cons_append, step, hr]
    rfl
  | ret e =>
    intro lb lc k prog pre post σ τ hk hp hn
    simp only [flatS, List.append_assoc, List.cons_append, List.nil_append] at hp ⊢
    obtain ⟨m, τ', h1, h2, h3, h4⟩ := (good M e h).1 k prog pre _ σ τ hp hn
    have hd := drain_steps M prog (.ret :: post) (setT τ' tret (ev M e σ).v) ((flat e).1 k).q (ev M e σ).p (ev M e σ).σ
      (fun σ1 => h4 σ1 _ (fun i hi hj => by rw [setT, if_neg (by unfold tret; omega)]))
    refine ⟨_, setT τ' tret (ev M e σ).v, post, h1.trans (.step (b := ⟨.eval (.tmp tret) :: (drain ((flat e).1 k).q ++
      .ret :: post), (ev M e σ).σ, setT τ' tret (ev M e σ).v⟩) ?_
      (.step rfl hd)), by simp [setT, whole]⟩
    simp only [step, h3]

end Verif.Flatten
