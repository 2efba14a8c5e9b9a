import Verif.Flatten.Lemmas

/-!
# The flattened code does what the expression does
-/

namespace Verif.Flatten

open Spec (St Sem Expr Stmt ev rd wr plain nopost Safe place Ev)

/-- Only temporaries from `k` up to `n` have changed. -/
def Same (k n : Nat) (τ τ' : Nat → Int) : Prop := ∀ i, i < k ∨ n ≤ i → τ' i = τ i

/-- The queue stands for the increments, whatever happens to memory and to other temporaries. -/
def Qok (M : Sem) (q : List (Tree × Bool)) (k n : Nat) (τ : Nat → Int) (p : List (Int × Bool)) : Prop :=
  ∀ σ1 τ1, (∀ i, k ≤ i → i < n → τ1 i = τ i) → q.map (fun x => (tev M x.1 σ1 τ1, x.2)) = p

/-- `rval` is right. -/
def RGood (M : Sem) (E : St → Ev) (r : Nat → R) : Prop :=
  ∀ k prog pre post σ τ, prog = pre ++ ((r k).code ++ post) → (labels prog).Nodup →
    ∃ n τ', Steps M prog n ⟨(r k).code ++ post, σ, τ⟩ ⟨post, (E σ).σ, τ'⟩ ∧ Same k (r k).nxt τ τ' ∧
      tev M (r k).tree (E σ).σ τ' = (E σ).v ∧ Qok M (r k).q k (r k).nxt τ' (E σ).p

/-- `flattencond` is right. -/
def CGood (M : Sem) (E : St → Ev) (c : Nat → Nat → Nat → C) : Prop :=
  ∀ k lt lf prog pre post rt rf σ τ, prog = pre ++ ((c k lt lf).code ++ post) → (labels prog).Nodup →
    find lt prog = some rt → find lf prog = some rf →
    ∃ n τ', Steps M prog n ⟨(c k lt lf).code ++ post, σ, τ⟩ ⟨if (E σ).v ≠ 0 then rt else rf, (E σ).σ, τ'⟩ ∧
      Same k (c k lt lf).nxt τ τ' ∧ Qok M (c k lt lf).q k (c k lt lf).nxt τ' (E σ).p

theorem Same.trans {k m n : Nat} {a b c : Nat → Int} (h : Same k m a b) (h' : Same m n b c) (hk : k ≤ m) (hm : m ≤ n) :
    Same k n a c := fun i hi => (h' i (by omega)).trans (h i (by omega))

theorem Same.mono {k m k' m' : Nat} {a b : Nat → Int} (h : Same k m a b) (hk : k' ≤ k) (hm : m ≤ m') :
    Same k' m' a b := fun i hi => h i (by omega)

theorem Same.set {k n : Nat} {a b : Nat → Int} (h : Same k n a b) (j : Nat) (v : Int) (hk : k ≤ j) (hj : j < n) :
    Same k n a (setT b j v) := by
  intro i hi
  rw [setT, if_neg (by omega)]
  exact h i hi

theorem Qok.mono {M : Sem} {q k n k' n' τ τ' p} (h : Qok M q k n τ p) (hk : k' ≤ k) (hn : n ≤ n')
    (ht : ∀ i, k ≤ i → i < n → τ' i = τ i) : Qok M q k' n' τ' p :=
  fun σ1 τ1 h1 => h σ1 τ1 (fun i hi hj => (h1 i (by omega) (by omega)).trans (ht i hi hj))

theorem Qok.append {M : Sem} {q q' k n τ p p'} (h : Qok M q k n τ p) (h' : Qok M q' k n τ p') :
    Qok M (q ++ q') k n τ (p ++ p') := by
  intro σ1 τ1 h1
  rw [List.map_append, h σ1 τ1 h1, h' σ1 τ1 h1]

theorem Qok.nil {M : Sem} {k n τ} : Qok M [] k n τ [] := fun _ _ _ => rfl

theorem RGood.deflt {M : Sem} {E : St → Ev} {r : Nat → R} (h : RGood M E r) : CGood M E (deflt r) := by
  intro k lt lf prog pre post rt rf σ τ hp hn ht hf
  obtain ⟨n, τ', h1, h2, h3, h4⟩ := h k prog pre (.cjmp (r k).tree lt lf :: post) σ τ
    (by rw [hp]; simp [Flatten.deflt]) hn
  refine ⟨n + 1, τ', ?_, h2, h4⟩
  simp only [Flatten.deflt, List.append_assoc, List.cons_append, List.nil_append]
  refine h1.trans (.one ?_)
  simp only [step, h3]
  split
  · rw [ht]; rfl
  · rw [hf]; rfl

/-- Two operands. -/
theorem two {M : Sem} {a b : Expr} (ha : RGood M (ev M a) (flat a).1) (hb : RGood M (ev M b) (flat b).1)
    (hd : ∀ x, rd a x → ¬wr b x) (k : Nat) (prog pre post : List I) (σ : St) (τ : Nat → Int)
    (hp : prog = pre ++ (((flat a).1 k).code ++ (((flat b).1 ((flat a).1 k).nxt).code ++ post)))
    (hn : (labels prog).Nodup) :
    ∃ n τ', Steps M prog n ⟨((flat a).1 k).code ++ (((flat b).1 ((flat a).1 k).nxt).code ++ post), σ, τ⟩
        ⟨post, (ev M b (ev M a σ).σ).σ, τ'⟩ ∧
      Same k ((flat b).1 ((flat a).1 k).nxt).nxt τ τ' ∧
      tev M ((flat a).1 k).tree (ev M b (ev M a σ).σ).σ τ' = (ev M a σ).v ∧
      tev M ((flat b).1 ((flat a).1 k).nxt).tree (ev M b (ev M a σ).σ).σ τ' = (ev M b (ev M a σ).σ).v ∧
      Qok M (((flat a).1 k).q ++ ((flat b).1 ((flat a).1 k).nxt).q) k ((flat b).1 ((flat a).1 k).nxt).nxt τ'
        ((ev M a σ).p ++ (ev M b (ev M a σ).σ).p) := by
  have b1 := ((bnd a).1 k).1
  have b2 := ((bnd b).1 ((flat a).1 k).nxt).1
  obtain ⟨n1, τ1, h1, h2, h3, h4⟩ := ha k prog pre _ σ τ hp hn
  obtain ⟨n2, τ2, g1, g2, g3, g4⟩ := hb ((flat a).1 k).nxt prog (pre ++ ((flat a).1 k).code) post (ev M a σ).σ τ1
    (by rw [hp]; simp) hn
  refine ⟨n1 + n2, τ2, h1.trans g1, h2.trans g2 b1 b2, ?_, g3, ?_⟩
  · rw [← h3]
    exact dep M a k _ _ _ _ (fun x hx => wr_off M b _ x (hd x hx)) (fun i hi hj => g2 i (.inl hj))
  · exact Qok.append (h4.mono (Nat.le_refl _) b2 (fun i hi hj => g2 i (.inl hj)))
      (g4.mono b1 (Nat.le_refl _) (fun _ _ _ => rfl))

/-- A right operand first. -/
theorem rightFirst {M : Sem} {a e : Expr} (ha : RGood M (ev M a) (flat a).1) (he : RGood M (ev M e) (flat e).1)
    (hs : Spec.SafeAsn a e) (k : Nat) (prog pre post : List I) (σ : St) (τ : Nat → Int)
    (hp : prog = pre ++ (((flat a).1 k).code ++ (((flat e).1 ((flat a).1 k).nxt).code ++ post)))
    (hn : (labels prog).Nodup) :
    ∃ n τ', Steps M prog n ⟨((flat a).1 k).code ++ (((flat e).1 ((flat a).1 k).nxt).code ++ post), σ, τ⟩
        ⟨post, (ev M a (ev M e σ).σ).σ, τ'⟩ ∧
      Same k ((flat e).1 ((flat a).1 k).nxt).nxt τ τ' ∧
      tev M ((flat a).1 k).tree (ev M a (ev M e σ).σ).σ τ' = (ev M a (ev M e σ).σ).v ∧
      tev M ((flat e).1 ((flat a).1 k).nxt).tree (ev M a (ev M e σ).σ).σ τ' = (ev M e σ).v ∧
      Qok M (((flat a).1 k).q ++ ((flat e).1 ((flat a).1 k).nxt).q) k ((flat e).1 ((flat a).1 k).nxt).nxt τ'
        ((ev M e σ).p ++ (ev M a (ev M e σ).σ).p) := by
  rcases hs with hpl | ⟨hpl, hd⟩
  · obtain ⟨p1, p2, p3⟩ := plain_flat M a hpl
    obtain ⟨c1, c2, c3⟩ := p1 k
    rw [c1, c3] at hp ⊢
    rw [c2]
    obtain ⟨n, τ', h1, h2, h3, h4⟩ := he k prog pre post σ τ hp hn
    rw [(p2 _).1, (p2 _).2]
    refine ⟨n, τ', h1, h2, p3 k _ _, h3, ?_⟩
    rw [List.append_nil]
    exact h4
  · obtain ⟨p1, p2, p3⟩ := plain_flat M e hpl
    obtain ⟨c1, c2, c3⟩ := p1 ((flat a).1 k).nxt
    rw [c1] at hp ⊢
    rw [c2, c3]
    obtain ⟨n, τ', h1, h2, h3, h4⟩ := ha k prog pre post σ τ hp hn
    rw [(p2 σ).1, (p2 σ).2]
    refine ⟨n, τ', h1, h2, h3, ?_, ?_⟩
    · have := dep M e ((flat a).1 k).nxt (ev M a σ).σ σ τ' τ' (fun x hx => wr_off M a σ x (hd x hx)) (fun _ _ _ => rfl)
      rw [this]
      exact p3 _ σ τ'
    · rw [List.append_nil]
      exact h4

/-- Lazy operators as conditions. -/
theorem land_good {M : Sem} {a b : Expr} (ha : CGood M (ev M a) (flat a).2) (hb : CGood M (ev M b) (flat b).2)
    (hnp : nopost b) : CGood M (ev M (.land a b)) (lazyCond true (flat a).2 (flat b).2) := by
  intro k lt lf prog pre post rt rf σ τ hp hn ht hf
  simp only [lazyCond, if_true] at hp ⊢
  have b1 := ((bnd a).2 (k + 1) k lf).1
  have b2 := ((bnd b).2 ((flat a).2 (k + 1) k lf).nxt lt lf).1
  obtain ⟨np1, np2, np3⟩ := nopost_flat M b hnp
  rw [np2, List.append_nil]
  generalize hA : (flat a).2 (k + 1) k lf = A at *
  generalize hB : (flat b).2 A.nxt lt lf = B at *
  have hfk := find_at' (L := k) hn (pre ++ A.code) (B.code ++ post) (by rw [hp]; simp)
  obtain ⟨n1, τ1, h1, h2, h3⟩ := ha (k + 1) k lf prog pre (.lbl k :: B.code ++ post) (B.code ++ post) rf σ τ
    (by rw [hp, hA]; simp) hn hfk hf
  rw [hA] at h1 h2 h3
  simp only [ev]
  by_cases hv : (ev M a σ).v ≠ 0
  · rw [if_pos hv] at h1 ⊢
    obtain ⟨n2, τ2, g1, g2, g3⟩ := hb A.nxt lt lf prog (pre ++ A.code ++ [.lbl k]) post rt rf (ev M a σ).σ τ1
      (by rw [hp, hB]; simp) hn ht hf
    rw [hB] at g1 g2 g3
    refine ⟨n1 + n2, τ2, ?_, (h2.mono (Nat.le_succ k) (Nat.le_refl _)).trans g2 (by omega) b2, ?_⟩
    · simp only [List.append_assoc, List.cons_append] at h1 ⊢
      refine h1.trans ?_
      simp only [Spec.truth]
      by_cases hb' : (ev M b (ev M a σ).σ).v = 0
      · simpa [hb'] using g1
      · simpa [hb'] using g1
    · dsimp only
      rw [np3, List.append_nil]
      exact h3.mono (Nat.le_succ k) b2 (fun i hi hj => g2 i (.inl hj))
  · rw [if_neg hv] at h1 ⊢
    refine ⟨n1, τ1, ?_, h2.mono (Nat.le_succ k) b2, h3.mono (Nat.le_succ k) b2 (fun _ _ _ => rfl)⟩
    simp only [List.append_assoc, List.cons_append] at h1 ⊢
    simpa using h1

theorem lor_good {M : Sem} {a b : Expr} (ha : CGood M (ev M a) (flat a).2) (hb : CGood M (ev M b) (flat b).2)
    (hnp : nopost b) : CGood M (ev M (.lor a b)) (lazyCond false (flat a).2 (flat b).2) := by
  intro k lt lf prog pre post rt rf σ τ hp hn ht hf
  simp only [lazyCond, Bool.false_eq_true, if_false] at hp ⊢
  have b1 := ((bnd a).2 (k + 1) lt k).1
  have b2 := ((bnd b).2 ((flat a).2 (k + 1) lt k).nxt lt lf).1
  obtain ⟨np1, np2, np3⟩ := nopost_flat M b hnp
  rw [np2, List.append_nil]
  generalize hA : (flat a).2 (k + 1) lt k = A at *
  generalize hB : (flat b).2 A.nxt lt lf = B at *
  have hfk := find_at' (L := k) hn (pre ++ A.code) (B.code ++ post) (by rw [hp]; simp)
  obtain ⟨n1, τ1, h1, h2, h3⟩ := ha (k + 1) lt k prog pre (.lbl k :: B.code ++ post) rt (B.code ++ post) σ τ
    (by rw [hp, hA]; simp) hn ht hfk
  rw [hA] at h1 h2 h3
  simp only [ev]
  by_cases hv : (ev M a σ).v ≠ 0
  · rw [if_pos hv] at h1 ⊢
    refine ⟨n1, τ1, ?_, h2.mono (Nat.le_succ k) b2, h3.mono (Nat.le_succ k) b2 (fun _ _ _ => rfl)⟩
    simp only [List.append_assoc, List.cons_append] at h1 ⊢
    simpa using h1
  · rw [if_neg hv] at h1 ⊢
    obtain ⟨n2, τ2, g1, g2, g3⟩ := hb A.nxt lt lf prog (pre ++ A.code ++ [.lbl k]) post rt rf (ev M a σ).σ τ1
      (by rw [hp, hB]; simp) hn ht hf
    rw [hB] at g1 g2 g3
    refine ⟨n1 + n2, τ2, ?_, (h2.mono (Nat.le_succ k) (Nat.le_refl _)).trans g2 (by omega) b2, ?_⟩
    · simp only [List.append_assoc, List.cons_append] at h1 ⊢
      refine h1.trans ?_
      simp only [Spec.truth]
      by_cases hb' : (ev M b (ev M a σ).σ).v = 0
      · simpa [hb'] using g1
      · simpa [hb'] using g1
    · dsimp only
      rw [np3, List.append_nil]
      exact h3.mono (Nat.le_succ k) b2 (fun i hi hj => g2 i (.inl hj))

/-- Lazy operators as values. -/
theorem lazyVal_good {M : Sem} {E : St → Ev} {c : Nat → Nat → Nat → C} (hc : CGood M E c) (hb : BndC c)
    (hv : ∀ σ, (E σ).v = Spec.truth ((E σ).v ≠ 0)) : RGood M E (lazyVal c) := by
  intro k prog pre post σ τ hp hn
  simp only [lazyVal] at hp ⊢
  have b1 := (hb (k + 4) (k + 1) (k + 2)).1
  generalize hD : c (k + 4) (k + 1) (k + 2) = D at *
  have f1 := find_at' (L := k + 1) hn (pre ++ D.code) _ (by rw [hp]; simp; rfl)
  have f2 := find_at' (L := k + 2) hn (pre ++ D.code ++ [.lbl (k + 1), .set k (.lit 1), .jmp (k + 3)]) _
    (by rw [hp]; simp; rfl)
  have f3 := find_at' (L := k + 3) hn
    (pre ++ D.code ++ [.lbl (k + 1), .set k (.lit 1), .jmp (k + 3), .lbl (k + 2), .set k (.lit 0), .jmp (k + 3)]) post
    (by rw [hp]; simp)
  obtain ⟨n, τ', h1, h2, h3⟩ := hc (k + 4) (k + 1) (k + 2) prog pre _ _ _ σ τ (by rw [hp, hD]; simp; rfl) hn f1 f2
  rw [hD] at h1 h2 h3
  have hs : Same k D.nxt τ τ' := h2.mono (by omega) (Nat.le_refl _)
  by_cases h : (E σ).v ≠ 0
  · rw [if_pos h] at h1
    refine ⟨n + 2, setT τ' k 1, ?_, hs.set k 1 (Nat.le_refl k) (by omega), ?_, h3.mono (by omega) (Nat.le_refl _) ?_⟩
    · simp only [List.append_assoc, List.cons_append, List.nil_append] at h1 ⊢
      refine h1.trans (.step rfl (.one ?_))
      simp only [step, f3]
      rfl
    · rw [hv σ, Spec.truth, if_pos h]
      simp [tev, setT]
    · intro i hi hj
      rw [setT, if_neg (by omega)]
  · rw [if_neg h] at h1
    refine ⟨n + 2, setT τ' k 0, ?_, hs.set k 0 (Nat.le_refl k) (by omega), ?_, h3.mono (by omega) (Nat.le_refl _) ?_⟩
    · simp only [List.append_assoc, List.cons_append, List.nil_append] at h1 ⊢
      refine h1.trans (.step rfl (.one ?_))
      simp only [step, f3]
      rfl
    · rw [hv σ, Spec.truth, if_neg h]
      simp [tev, setT]
    · intro i hi hj
      rw [setT, if_neg (by omega)]

theorem tern_good {M : Sem} {c a b : Expr} (hc : CGood M (ev M c) (flat c).2) (ha : RGood M (ev M a) (flat a).1)
    (hb : RGood M (ev M b) (flat b).1) (npa : nopost a) (npb : nopost b) :
    RGood M (ev M (.tern c a b)) (ternVal (flat c).2 (flat a).1 (flat b).1) := by
  intro k prog pre post σ τ hp hn
  simp only [ternVal] at hp ⊢
  have b1 := ((bnd c).2 (k + 4) (k + 1) (k + 2)).1
  rw [(nopost_flat M a npa).1, (nopost_flat M b npb).1, List.append_nil, List.append_nil]
  generalize hD : (flat c).2 (k + 4) (k + 1) (k + 2) = D at *
  have b2 := ((bnd a).1 D.nxt).1
  generalize hA : (flat a).1 D.nxt = A at *
  have b3 := ((bnd b).1 A.nxt).1
  generalize hB : (flat b).1 A.nxt = B at *
  have f1 := find_at' (L := k + 1) hn (pre ++ D.code) _ (by rw [hp]; simp; rfl)
  have f2 := find_at' (L := k + 2) hn
    (pre ++ D.code ++ .lbl (k + 1) :: A.code ++ [.set k A.tree, .eval (.tmp k), .jmp (k + 3)]) _ (by rw [hp]; simp; rfl)
  have f3 := find_at' (L := k + 3) hn
    (pre ++ D.code ++ .lbl (k + 1) :: A.code ++ [.set k A.tree, .eval (.tmp k), .jmp (k + 3), .lbl (k + 2)] ++ B.code ++
      [.set k B.tree, .eval (.tmp k)]) post (by rw [hp]; simp)
  obtain ⟨n, τ', h1, h2, h3⟩ := hc (k + 4) (k + 1) (k + 2) prog pre _ _ _ σ τ (by rw [hp, hD]; simp; rfl) hn f1 f2
  rw [hD] at h1 h2 h3
  have hs : Same k D.nxt τ τ' := h2.mono (by omega) (Nat.le_refl _)
  simp only [ev]
  by_cases h : (ev M c σ).v ≠ 0
  · rw [if_pos h] at h1
    rw [if_pos h]
    obtain ⟨n2, τ2, g1, g2, g3, g4⟩ := ha D.nxt prog (pre ++ D.code ++ [.lbl (k + 1)]) _ (ev M c σ).σ τ'
      (by rw [hp, hA]; simp; rfl) hn
    rw [hA] at g1 g2 g3 g4
    refine ⟨n + (n2 + 3), setT τ2 k (tev M A.tree (ev M a (ev M c σ).σ).σ τ2), ?_,
      ((hs.trans g2 (by omega) b2).mono (Nat.le_refl k) b3).set k _ (Nat.le_refl k) (by omega), ?_, ?_⟩
    · simp only [List.append_assoc, List.cons_append, List.nil_append] at h1 ⊢
      refine h1.trans (g1.trans (.step rfl (.step rfl (.one ?_))))
      simp only [step, f3]
      rfl
    · simp [tev, setT, g3]
    · rw [(nopost_flat M a npa).2.2, List.append_nil]
      refine h3.mono (by omega) (by omega) (fun i hi hj => ?_)
      rw [setT, if_neg (by omega)]
      exact g2 i (.inl hj)
  · rw [if_neg h] at h1
    rw [if_neg h]
    obtain ⟨n2, τ2, g1, g2, g3, g4⟩ := hb A.nxt prog
      (pre ++ D.code ++ .lbl (k + 1) :: A.code ++ [.set k A.tree, .eval (.tmp k), .jmp (k + 3), .lbl (k + 2)]) _
      (ev M c σ).σ τ' (by rw [hp, hB]; simp; rfl) hn
    rw [hB] at g1 g2 g3 g4
    refine ⟨n + (n2 + 3), setT τ2 k (tev M B.tree (ev M b (ev M c σ).σ).σ τ2), ?_,
      ((hs.mono (Nat.le_refl k) b2).trans g2 (by omega) b3).set k _ (Nat.le_refl k) (by omega), ?_, ?_⟩
    · simp only [List.append_assoc, List.cons_append, List.nil_append] at h1 ⊢
      exact h1.trans (g1.trans (.step rfl (.step rfl (.one rfl))))
    · simp [tev, setT, g3]
    · rw [(nopost_flat M b npb).2.2, List.append_nil]
      refine h3.mono (by omega) (by omega) (fun i hi hj => ?_)
      rw [setT, if_neg (by omega)]
      exact g2 i (.inl (by omega))

theorem truth_truth (p : Prop) [Decidable p] : Spec.truth p = Spec.truth (Spec.truth p ≠ 0) := by
  unfold Spec.truth
  by_cases h : p <;> simp [h]

/-- The flattened code of a safe expression does what the expression does. -/
theorem good (M : Sem) (e : Expr) (h : Safe e) : RGood M (ev M e) (flat e).1 ∧ CGood M (ev M e) (flat e).2 := by
  induction e with
  | lit v =>
    have g : RGood M (ev M (.lit v)) (flat (.lit v)).1 := fun k prog pre post σ τ _ _ =>
      ⟨0, τ, .refl _, fun _ _ => rfl, rfl, Qok.nil⟩
    exact ⟨g, g.deflt⟩
  | load a ih =>
    have g : RGood M (ev M (.load a)) (flat (.load a)).1 := by
      intro k prog pre post σ τ hp hn
      obtain ⟨n, τ', h1, h2, h3, h4⟩ := (ih h).1 k prog pre post σ τ hp hn
      exact ⟨n, τ', h1, h2, by simp only [flat, ev, tev]; rw [h3], h4⟩
    exact ⟨g, g.deflt⟩
  | bin o a b iha ihb =>
    have g : RGood M (ev M (.bin o a b)) (flat (.bin o a b)).1 := by
      intro k prog pre post σ τ hp hn
      simp only [flat, List.append_assoc] at hp ⊢
      obtain ⟨n, τ', h1, h2, h3, h4, h5⟩ := two (iha h.1).1 (ihb h.2.1).1 h.2.2 k prog pre post σ τ hp hn
      exact ⟨n, τ', h1, h2, by simp only [tev, ev, h3, h4], h5⟩
    exact ⟨g, g.deflt⟩
  | lnot a ih =>
    refine ⟨?_, ?_⟩
    · intro k prog pre post σ τ hp hn
      obtain ⟨n, τ', h1, h2, h3, h4⟩ := (ih h).1 k prog pre post σ τ hp hn
      exact ⟨n, τ', h1, h2, by simp only [flat, ev, tev]; rw [h3], h4⟩
    · intro k lt lf prog pre post rt rf σ τ hp hn ht hf
      obtain ⟨n, τ', h1, h2, h3⟩ := (ih h).2 k lf lt prog pre post rf rt σ τ hp hn hf ht
      refine ⟨n, τ', ?_, h2, h3⟩
      show Steps M prog n ⟨((flat a).2 k lf lt).code ++ post, σ, τ⟩ _
      simp only [ev, Spec.truth]
      by_cases hv : (ev M a σ).v = 0
      · simpa [hv] using h1
      · simpa [hv] using h1
  | call f a b iha ihb =>
    have g : RGood M (ev M (.call f a b)) (flat (.call f a b)).1 := by
      intro k prog pre post σ τ hp hn
      simp only [flat, List.append_assoc] at hp ⊢
      obtain ⟨n, τ', h1, h2, h3, h4, h5⟩ := two (iha h.1).1 (ihb h.2.1).1 h.2.2 k prog pre _ σ τ hp hn
      have b1 := ((bnd a).1 k).1
      have b2 := ((bnd b).1 ((flat a).1 k).nxt).1
      refine ⟨n + 1, setT τ' ((flat b).1 ((flat a).1 k).nxt).nxt (ev M (.call f a b) σ).v, h1.trans (.one ?_), ?_, ?_, ?_⟩
      · simp only [step, h3, h4, List.cons_append, List.nil_append]
        rfl
      · exact (h2.mono (Nat.le_refl k) (Nat.le_succ _)).set _ _ (by omega) (Nat.lt_succ_self _)
      · simp [tev, setT]
      · refine h5.mono (Nat.le_refl k) (Nat.le_succ _) (fun i hi hj => ?_)
        rw [setT, if_neg (by omega)]
    exact ⟨g, g.deflt⟩
  | asn a e iha ihe =>
    have g : RGood M (ev M (.asn a e)) (flat (.asn a e)).1 := by
      intro k prog pre post σ τ hp hn
      simp only [flat, List.append_assoc] at hp ⊢
      obtain ⟨n, τ', h1, h2, h3, h4, h5⟩ := rightFirst (iha h.1).1 (ihe h.2.1).1 h.2.2.1 k prog pre _ σ τ hp hn
      refine ⟨n + 1, τ', ?_, h2, ?_, h5⟩
      · refine h1.trans (.one ?_)
        simp only [step, h3, h4, List.cons_append, List.nil_append]
        rfl
      · simp only [tev, ev]
        rw [dep M a k _ (ev M a (ev M e σ).σ).σ τ' τ' (fun x hx => absurd hx (h.2.2.2 x)) (fun _ _ _ => rfl), h3]
        simp [Spec.set]
    exact ⟨g, g.deflt⟩
  | preinc up a ih =>
    have g : RGood M (ev M (.preinc up a)) (flat (.preinc up a)).1 := by
      intro k prog pre post σ τ hp hn
      simp only [flat, List.append_assoc] at hp ⊢
      obtain ⟨n, τ', h1, h2, h3, h4⟩ := (ih h.1).1 k prog pre _ σ τ hp hn
      refine ⟨n + 1, τ', ?_, h2, ?_, h4⟩
      · refine h1.trans (.one ?_)
        simp only [step, tev, h3, List.cons_append, List.nil_append]
        rfl
      · simp only [tev, ev]
        rw [dep M a k _ (ev M a σ).σ τ' τ' (fun x hx => absurd hx (h.2 x)) (fun _ _ _ => rfl), h3]
        simp [Spec.set]
    exact ⟨g, g.deflt⟩
  | postinc up a ih =>
    have g : RGood M (ev M (.postinc up a)) (flat (.postinc up a)).1 := by
      intro k prog pre post σ τ hp hn
      obtain ⟨n, τ', h1, h2, h3, h4⟩ := (ih h.1).1 k prog pre post σ τ hp hn
      refine ⟨n, τ', h1, h2, by simp only [flat, ev, tev]; rw [h3], ?_⟩
      refine Qok.append h4 ?_
      intro σ1 τ1 ht
      simp only [List.map_cons, List.map_nil]
      rw [dep M a k σ1 (ev M a σ).σ τ1 τ' (fun x hx => absurd hx (h.2 x)) ht, h3]
    exact ⟨g, g.deflt⟩
  | land a b iha ihb =>
    have g := land_good (iha h.1).2 (ihb h.2.1).2 h.2.2
    refine ⟨lazyVal_good g (bnd (.land a b)).2 (fun σ => ?_), g⟩
    simp only [ev]
    split
    · exact truth_truth _
    · rfl
  | lor a b iha ihb =>
    have g := lor_good (iha h.1).2 (ihb h.2.1).2 h.2.2
    refine ⟨lazyVal_good g (bnd (.lor a b)).2 (fun σ => ?_), g⟩
    simp only [ev]
    split
    · rfl
    · exact truth_truth _
  | tern c a b ihc iha ihb =>
    have g := tern_good (ihc h.1).2 (iha h.2.1).1 (ihb h.2.2.1).1 h.2.2.2.1 h.2.2.2.2
    exact ⟨g, g.deflt⟩

end Verif.Flatten
