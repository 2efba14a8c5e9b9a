import Verif.Flatten.Model
import Mathlib.Tactic.Common

/-!
# Lemmas for the flattening
-/

namespace Verif.Flatten

open Spec (St Sem Expr Stmt ev rd wr plain nopost Safe place)

/-! ## Labels -/

/-- The label of a statement. -/
def lab : I → Option Nat
  | .lbl n => some n
  | _ => none

/-- The labels of some code. -/
def labels (is : List I) : List Nat := is.filterMap lab

@[simp] theorem labels_nil : labels [] = [] := rfl
@[simp] theorem labels_append (a b : List I) : labels (a ++ b) = labels a ++ labels b := List.filterMap_append ..
@[simp] theorem labels_lbl (n : Nat) (a : List I) : labels (.lbl n :: a) = n :: labels a := rfl
@[simp] theorem labels_jmp (n : Nat) (a : List I) : labels (.jmp n :: a) = labels a := rfl
@[simp] theorem labels_cjmp (t l m) (a : List I) : labels (.cjmp t l m :: a) = labels a := rfl
@[simp] theorem labels_set (n t) (a : List I) : labels (.set n t :: a) = labels a := rfl
@[simp] theorem labels_store (n t) (a : List I) : labels (.store n t :: a) = labels a := rfl
@[simp] theorem labels_call (n f t u) (a : List I) : labels (.call n f t u :: a) = labels a := rfl
@[simp] theorem labels_eval (t) (a : List I) : labels (.eval t :: a) = labels a := rfl
@[simp] theorem labels_ret (a : List I) : labels (.ret :: a) = labels a := rfl

@[simp] theorem labels_drain (q : List (Tree × Bool)) : labels (drain q) = [] := by
  induction q with
  | nil => rfl
  | cons x q ih => exact ih

theorem find_at (L : Nat) (pre rest : List I) (h : (labels (pre ++ .lbl L :: rest)).Nodup) :
    find L (pre ++ .lbl L :: rest) = some rest := by
  induction pre with
  | nil => simp [find]
  | cons i pre ih =>
    have hne : ∀ n, i = .lbl n → n ≠ L := by
      rintro n rfl hL
      simp [hL] at h
    have h' : (labels (pre ++ .lbl L :: rest)).Nodup := by
      cases i <;> simp at h ⊢ <;> first | exact h | exact h.2
    rw [List.cons_append]
    cases i with
    | lbl n => rw [find, if_neg (hne n rfl)]; exact ih h'
    | _ => exact ih h'

theorem find_at' {L : Nat} {prog : List I} (h : (labels prog).Nodup) (pre rest : List I)
    (he : prog = pre ++ .lbl L :: rest) : find L prog = some rest := by
  subst he
  exact find_at L pre rest h

/-- Labels in a range, each once. -/
def Lab (k n : Nat) (is : List I) : Prop := (∀ L ∈ labels is, k ≤ L ∧ L < n) ∧ (labels is).Nodup

/-- Names go up, and labels are new. -/
def BndR (r : Nat → R) : Prop := ∀ k, k ≤ (r k).nxt ∧ Lab k (r k).nxt (r k).code

/-- The same for conditions. -/
def BndC (c : Nat → Nat → Nat → C) : Prop := ∀ k lt lf, k ≤ (c k lt lf).nxt ∧ Lab k (c k lt lf).nxt (c k lt lf).code

theorem Lab.append {k m n : Nat} {a b : List I} (ha : Lab k m a) (hb : Lab m n b) (hk : k ≤ m) (hm : m ≤ n) :
    Lab k n (a ++ b) := by
  constructor
  · intro L hL
    rw [labels_append, List.mem_append] at hL
    rcases hL with h | h
    · have := ha.1 L h; omega
    · have := hb.1 L h; omega
  · rw [labels_append, List.nodup_append]
    refine ⟨ha.2, hb.2, fun x hx y hy => ?_⟩
    have := ha.1 x hx; have := hb.1 y hy; omega

theorem BndR.deflt {r : Nat → R} (h : BndR r) : BndC (deflt r) := by
  intro k lt lf
  refine ⟨(h k).1, ?_⟩
  have := (h k).2
  unfold Lab at *
  simpa [Flatten.deflt] using this

theorem bnd_lazy (and : Bool) {ca cb : Nat → Nat → Nat → C} (ha : BndC ca) (hb : BndC cb) : BndC (lazyCond and ca cb) := by
  intro k lt lf
  unfold lazyCond
  dsimp only
  have key : ∀ A : C, k + 1 ≤ A.nxt → Lab (k + 1) A.nxt A.code →
      k ≤ (cb A.nxt lt lf).nxt ∧ Lab k (cb A.nxt lt lf).nxt (A.code ++ .lbl k :: (cb A.nxt lt lf).code) := by
    intro A h1 h2
    obtain ⟨h3, h4⟩ := hb A.nxt lt lf
    refine ⟨by omega, ?_, ?_⟩
    · intro L hL
      simp only [labels_append, labels_lbl, List.mem_append, List.mem_cons] at hL
      rcases hL with h | rfl | h
      · have := h2.1 L h; omega
      · omega
      · have := h4.1 L h; omega
    · simp only [labels_append, labels_lbl, List.nodup_append, List.nodup_cons, List.mem_cons]
      refine ⟨h2.2, ⟨fun h => ?_, h4.2⟩, fun x hx y hy => ?_⟩
      · have := h4.1 k h; omega
      · have := h2.1 x hx
        rcases hy with rfl | hy
        · omega
        · have := h4.1 y hy; omega
  cases and
  · exact key _ (ha _ _ _).1 (ha _ _ _).2
  · exact key _ (ha _ _ _).1 (ha _ _ _).2

theorem bnd_lazyVal {c : Nat → Nat → Nat → C} (h : BndC c) : BndR (lazyVal c) := by
  intro k
  obtain ⟨h1, h2, h3⟩ := h (k + 4) (k + 1) (k + 2)
  unfold lazyVal
  dsimp only
  refine ⟨by omega, ?_, ?_⟩
  · intro L hL
    simp at hL
    rcases hL with h | h | h | h
    · have := h2 L h; omega
    all_goals omega
  · simp only [labels_append, labels_lbl, labels_set, labels_jmp, labels_nil, List.nodup_append]
    refine ⟨h3, by simp, fun x hx y hy => ?_⟩
    have := h2 x hx
    simp at hy
    omega

theorem bnd_tern {c : Nat → Nat → Nat → C} {a b : Nat → R} (hc : BndC c) (ha : BndR a) (hb : BndR b) :
    BndR (ternVal c a b) := by
  intro k
  unfold ternVal
  dsimp only
  obtain ⟨c1, c2, c3⟩ := hc (k + 4) (k + 1) (k + 2)
  generalize c (k + 4) (k + 1) (k + 2) = D at *
  obtain ⟨a1, a2, a3⟩ := ha D.nxt
  generalize a D.nxt = A at *
  obtain ⟨b1, b2, b3⟩ := hb A.nxt
  generalize b A.nxt = B at *
  refine ⟨by omega, ?_, ?_⟩
  · intro L hL
    simp at hL
    rcases hL with h | h | h | h | h | h
    · have := c2 L h; omega
    · omega
    · have := a2 L h; omega
    · omega
    · have := b2 L h; omega
    · omega
  · simp
    simp only [List.nodup_append, List.nodup_cons, List.mem_append, List.mem_cons, List.not_mem_nil, or_false]
    refine ⟨c3, ⟨?_, a3, ⟨?_, b3, by simp, ?_⟩, ?_⟩, ?_⟩
    · rintro (h | h | h | h)
      · have := a2 _ h; omega
      · omega
      · have := b2 _ h; omega
      · omega
    · rintro (h | h)
      · have := b2 _ h; omega
      · omega
    · intro x hx y hy
      have := b2 x hx; omega
    · intro x hx y hy
      have := a2 x hx
      rcases hy with rfl | hy | rfl
      · omega
      · have := b2 y hy; omega
      · omega
    · intro x hx y hy
      have := c2 x hx
      rcases hy with rfl | hy | rfl | hy | rfl
      · omega
      · have := a2 y hy; omega
      · omega
      · have := b2 y hy; omega
      · omega

theorem bnd (e : Expr) : BndR (flat e).1 ∧ BndC (flat e).2 := by
  induction e with
  | lit v =>
    have h : BndR (flat (.lit v)).1 := fun k => ⟨Nat.le_refl k, by simp [flat, Lab]⟩
    exact ⟨h, h.deflt⟩
  | load a ih =>
    have h : BndR (flat (.load a)).1 := fun k => ih.1 k
    exact ⟨h, h.deflt⟩
  | bin o a b iha ihb =>
    have h : BndR (flat (.bin o a b)).1 := fun k =>
      ⟨Nat.le_trans (iha.1 k).1 (ihb.1 _).1, (iha.1 k).2.append (ihb.1 _).2 (iha.1 k).1 (ihb.1 _).1⟩
    exact ⟨h, h.deflt⟩
  | lnot a ih => exact ⟨fun k => ih.1 k, fun k lt lf => ih.2 k lf lt⟩
  | call f a b iha ihb =>
    have h : BndR (flat (.call f a b)).1 := by
      intro k
      have h1 := (iha.1 k).1
      have h2 := (ihb.1 ((flat a).1 k).nxt).1
      refine ⟨by simp only [flat]; omega, ?_⟩
      have h3 := (iha.1 k).2.append (ihb.1 _).2 (iha.1 k).1 (ihb.1 _).1
      have h4 : Lab ((flat b).1 ((flat a).1 k).nxt).nxt (((flat b).1 ((flat a).1 k).nxt).nxt + 1)
        [I.call ((flat b).1 ((flat a).1 k).nxt).nxt f ((flat a).1 k).tree ((flat b).1 ((flat a).1 k).nxt).tree] := by
        simp [Lab]
      exact h3.append h4 (by omega) (Nat.le_succ _)
    exact ⟨h, h.deflt⟩
  | asn a e iha ihe =>
    have h : BndR (flat (.asn a e)).1 := by
      intro k
      have h1 := (iha.1 k).1
      have h2 := (ihe.1 ((flat a).1 k).nxt).1
      refine ⟨by simp only [flat]; omega, ?_⟩
      have h3 := (iha.1 k).2.append (ihe.1 _).2 (iha.1 k).1 (ihe.1 _).1
      exact h3.append (n := ((flat e).1 ((flat a).1 k).nxt).nxt) (by simp [Lab]) (by omega) (by omega)
    exact ⟨h, h.deflt⟩
  | preinc up a ih =>
    have h : BndR (flat (.preinc up a)).1 := by
      intro k
      refine ⟨(ih.1 k).1, ?_⟩
      exact (ih.1 k).2.append (n := ((flat a).1 k).nxt) (by simp [Lab]) (ih.1 k).1 (Nat.le_refl _)
    exact ⟨h, h.deflt⟩
  | postinc up a ih =>
    have h : BndR (flat (.postinc up a)).1 := fun k => ih.1 k
    exact ⟨h, h.deflt⟩
  | land a b iha ihb => exact ⟨bnd_lazyVal (bnd_lazy true iha.2 ihb.2), bnd_lazy true iha.2 ihb.2⟩
  | lor a b iha ihb => exact ⟨bnd_lazyVal (bnd_lazy false iha.2 ihb.2), bnd_lazy false iha.2 ihb.2⟩
  | tern c a b ihc iha ihb =>
    have h : BndR (flat (.tern c a b)).1 := bnd_tern ihc.2 iha.1 ihb.1
    exact ⟨h, h.deflt⟩

/-! ## Steps -/

theorem Steps.trans {M : Sem} {prog : List I} {n m : Nat} {a b c : Cfg} (h : Steps M prog n a b)
    (h' : Steps M prog m b c) : Steps M prog (n + m) a c := by
  induction h with
  | refl => rwa [Nat.zero_add]
  | step s _ ih =>
    rw [Nat.add_right_comm]
    exact .step s (ih h')

theorem Steps.one {M : Sem} {prog : List I} {a b : Cfg} (h : Flatten.step M prog a = some b) : Steps M prog 1 a b :=
  .step h (.refl b)

/-! ## What values depend on -/

theorem place_rd (a : Expr) (σ1 σ2 : St) (h : ∀ x, place a x → σ1 x = σ2 x) :
    (∃ v, a = .lit v ∧ σ1 v = σ2 v) ∨ σ1 = σ2 := by
  cases a with
  | lit v => exact .inl ⟨v, rfl, h v rfl⟩
  | _ => exact .inr (funext fun x => h x trivial)

/-- The value of the tree depends on the memory it reads, and on its own temporaries. -/
theorem dep (M : Sem) (e : Expr) : ∀ (k : Nat) (σ1 σ2 : St) (τ1 τ2 : Nat → Int), (∀ x, rd e x → σ1 x = σ2 x) →
    (∀ i, k ≤ i → i < ((flat e).1 k).nxt → τ1 i = τ2 i) →
    tev M ((flat e).1 k).tree σ1 τ1 = tev M ((flat e).1 k).tree σ2 τ2 := by
  have ld : ∀ a : Expr, (∀ (k : Nat) (σ1 σ2 : St) (τ1 τ2 : Nat → Int), (∀ x, rd a x → σ1 x = σ2 x) →
      (∀ i, k ≤ i → i < ((flat a).1 k).nxt → τ1 i = τ2 i) →
      tev M ((flat a).1 k).tree σ1 τ1 = tev M ((flat a).1 k).tree σ2 τ2) →
      ∀ (k : Nat) (σ1 σ2 : St) (τ1 τ2 : Nat → Int), (∀ x, place a x → σ1 x = σ2 x) →
      (∀ i, k ≤ i → i < ((flat a).1 k).nxt → τ1 i = τ2 i) →
      tev M (.load ((flat a).1 k).tree) σ1 τ1 = tev M (.load ((flat a).1 k).tree) σ2 τ2 := by
    intro a ih k σ1 σ2 τ1 τ2 hs ht
    rcases place_rd a σ1 σ2 hs with ⟨v, rfl, hv⟩ | rfl
    · exact hv
    · exact congrArg σ1 (ih k σ1 σ1 τ1 τ2 (fun _ _ => rfl) ht)
  induction e with
  | lit v => intros; rfl
  | load a ih => exact ld a ih
  | bin o a b iha ihb =>
    intro k σ1 σ2 τ1 τ2 hs ht
    have h1 := ((bnd a).1 k).1
    have h2 := ((bnd b).1 ((flat a).1 k).nxt).1
    have e1 := iha k σ1 σ2 τ1 τ2 (fun x hx => hs x (.inl hx)) (fun i hi hj => ht i hi (by simp only [flat]; omega))
    have e2 := ihb ((flat a).1 k).nxt σ1 σ2 τ1 τ2 (fun x hx => hs x (.inr hx))
      (fun i hi hj => ht i (by omega) (by simp only [flat]; omega))
    simp only [flat, tev, e1, e2]
  | lnot a ih =>
    intro k σ1 σ2 τ1 τ2 hs ht
    simp only [flat, tev, ih k σ1 σ2 τ1 τ2 hs ht]
  | call f a b iha ihb =>
    intro k σ1 σ2 τ1 τ2 hs ht
    have h1 := ((bnd a).1 k).1
    have h2 := ((bnd b).1 ((flat a).1 k).nxt).1
    exact ht _ (Nat.le_trans h1 h2) (Nat.lt_succ_self _)
  | asn a e iha ihe =>
    intro k σ1 σ2 τ1 τ2 hs ht
    have h2 := ((bnd e).1 ((flat a).1 k).nxt).1
    exact ld a iha k σ1 σ2 τ1 τ2 hs (fun i hi hj => ht i hi (by simp only [flat]; omega))
  | preinc up a ih => exact ld a ih
  | postinc up a ih => exact ld a ih
  | land a b iha ihb =>
    intro k σ1 σ2 τ1 τ2 hs ht
    have h := ((bnd (.land a b)).2 (k + 4) (k + 1) (k + 2)).1
    exact ht k (Nat.le_refl k) (by show k < ((flat (.land a b)).2 (k + 4) (k + 1) (k + 2)).nxt; omega)
  | lor a b iha ihb =>
    intro k σ1 σ2 τ1 τ2 hs ht
    have h := ((bnd (.lor a b)).2 (k + 4) (k + 1) (k + 2)).1
    exact ht k (Nat.le_refl k) (by show k < ((flat (.lor a b)).2 (k + 4) (k + 1) (k + 2)).nxt; omega)
  | tern c a b ihc iha ihb =>
    intro k σ1 σ2 τ1 τ2 hs ht
    have h1 := ((bnd c).2 (k + 4) (k + 1) (k + 2)).1
    have h2 := ((bnd a).1 ((flat c).2 (k + 4) (k + 1) (k + 2)).nxt).1
    have h3 := ((bnd b).1 ((flat a).1 ((flat c).2 (k + 4) (k + 1) (k + 2)).nxt).nxt).1
    exact ht k (Nat.le_refl k) (by simp only [flat, ternVal]; omega)

theorem set_off (a : Expr) (M : Sem) (σ σ' : St) (v : Int) (x : Int) (h : ¬place a x) :
    Spec.set σ' (ev M a σ).v v x = σ' x := by
  cases a with
  | lit w => exact if_neg h
  | _ => exact absurd trivial h

/-- What is not changed. -/
theorem wr_off (M : Sem) (e : Expr) : ∀ σ x, ¬wr e x → (ev M e σ).σ x = σ x := by
  induction e with
  | lit v => intros; rfl
  | load a ih => exact ih
  | bin o a b iha ihb =>
    intro σ x h
    exact (ihb _ x (fun h' => h (.inr h'))).trans (iha σ x (fun h' => h (.inl h')))
  | lnot a ih => exact ih
  | call f a b iha ihb => intro σ x h; exact absurd trivial h
  | asn a e iha ihe =>
    intro σ x h
    refine (set_off a M _ _ _ x (fun h' => h (.inl h'))).trans ?_
    exact (iha _ x (fun h' => h (.inr (.inl h')))).trans (ihe σ x (fun h' => h (.inr (.inr h'))))
  | preinc up a ih =>
    intro σ x h
    exact (set_off a M _ _ _ x (fun h' => h (.inl h'))).trans (ih σ x (fun h' => h (.inr h')))
  | postinc up a ih => exact ih
  | land a b iha ihb =>
    intro σ x h
    simp only [ev]
    split
    · exact (ihb _ x (fun h' => h (.inr h'))).trans (iha σ x (fun h' => h (.inl h')))
    · exact iha σ x (fun h' => h (.inl h'))
  | lor a b iha ihb =>
    intro σ x h
    simp only [ev]
    split
    · exact iha σ x (fun h' => h (.inl h'))
    · exact (ihb _ x (fun h' => h (.inr h'))).trans (iha σ x (fun h' => h (.inl h')))
  | tern c a b ihc iha ihb =>
    intro σ x h
    simp only [ev]
    split
    · exact (iha _ x (fun h' => h (.inr (.inl h')))).trans (ihc σ x (fun h' => h (.inl h')))
    · exact (ihb _ x (fun h' => h (.inr (.inr h')))).trans (ihc σ x (fun h' => h (.inl h')))

/-- Plain expressions emit nothing. -/
theorem plain_flat (M : Sem) (e : Expr) (h : plain e) : (∀ k, ((flat e).1 k).code = [] ∧ ((flat e).1 k).q = [] ∧
      ((flat e).1 k).nxt = k) ∧
    (∀ σ, (ev M e σ).σ = σ ∧ (ev M e σ).p = []) ∧
    (∀ k σ τ, tev M ((flat e).1 k).tree σ τ = (ev M e σ).v) := by
  induction e with
  | lit v => exact ⟨fun k => ⟨rfl, rfl, rfl⟩, fun σ => ⟨rfl, rfl⟩, fun k σ τ => rfl⟩
  | load a ih =>
    obtain ⟨h1, h2, h3⟩ := ih h
    refine ⟨h1, h2, fun k σ τ => ?_⟩
    simp only [flat, tev, ev, h3, (h2 σ).1]
  | bin o a b iha ihb =>
    obtain ⟨h1, h2, h3⟩ := iha h.1
    obtain ⟨g1, g2, g3⟩ := ihb h.2
    refine ⟨fun k => ?_, fun σ => ?_, fun k σ τ => ?_⟩
    · simp only [flat, (h1 k).1, (h1 k).2.1, (h1 k).2.2, (g1 k).1, (g1 k).2.1, (g1 k).2.2, List.append_nil, and_self]
    · simp only [ev, (h2 σ).1, (h2 σ).2, (g2 σ).1, (g2 σ).2, List.append_nil, and_self]
    · simp only [flat, tev, ev, h3, g3, (h2 σ).1]
  | lnot a ih =>
    obtain ⟨h1, h2, h3⟩ := ih h
    refine ⟨h1, h2, fun k σ τ => ?_⟩
    simp only [flat, tev, ev, h3]
  | _ => exact absurd h id

theorem nopost_flat (M : Sem) (e : Expr) (h : nopost e) : (∀ k, ((flat e).1 k).q = []) ∧
    (∀ k lt lf, ((flat e).2 k lt lf).q = []) ∧ ∀ σ, (ev M e σ).p = [] := by
  induction e with
  | lit v => exact ⟨fun k => rfl, fun k lt lf => rfl, fun σ => rfl⟩
  | load a ih =>
    obtain ⟨h1, h2, h3⟩ := ih h
    exact ⟨h1, fun k lt lf => h1 k, h3⟩
  | bin o a b iha ihb =>
    obtain ⟨h1, h2, h3⟩ := iha h.1
    obtain ⟨g1, g2, g3⟩ := ihb h.2
    refine ⟨fun k => ?_, fun k lt lf => ?_, fun σ => ?_⟩
    · simp [flat, h1, g1]
    · simp [flat, deflt, h1, g1]
    · simp [ev, h3, g3]
  | lnot a ih =>
    obtain ⟨h1, h2, h3⟩ := ih h
    exact ⟨h1, fun k lt lf => h2 k lf lt, h3⟩
  | call f a b iha ihb =>
    obtain ⟨h1, h2, h3⟩ := iha h.1
    obtain ⟨g1, g2, g3⟩ := ihb h.2
    refine ⟨fun k => ?_, fun k lt lf => ?_, fun σ => ?_⟩
    · simp [flat, h1, g1]
    · simp [flat, deflt, h1, g1]
    · simp [ev, h3, g3]
  | asn a b iha ihb =>
    obtain ⟨h1, h2, h3⟩ := iha h.1
    obtain ⟨g1, g2, g3⟩ := ihb h.2
    refine ⟨fun k => ?_, fun k lt lf => ?_, fun σ => ?_⟩
    · simp [flat, h1, g1]
    · simp [flat, deflt, h1, g1]
    · simp [ev, h3, g3]
  | preinc up a ih =>
    obtain ⟨h1, h2, h3⟩ := ih h
    exact ⟨h1, fun k lt lf => h1 k, h3⟩
  | postinc up a ih => exact absurd h id
  | land a b iha ihb =>
    obtain ⟨h1, h2, h3⟩ := iha h.1
    obtain ⟨g1, g2, g3⟩ := ihb h.2
    refine ⟨fun k => ?_, fun k lt lf => ?_, fun σ => ?_⟩
    · simp [flat, lazyVal, lazyCond, h2, g2]
    · simp [flat, lazyCond, h2, g2]
    · simp only [ev]; split <;> simp [h3, g3]
  | lor a b iha ihb =>
    obtain ⟨h1, h2, h3⟩ := iha h.1
    obtain ⟨g1, g2, g3⟩ := ihb h.2
    refine ⟨fun k => ?_, fun k lt lf => ?_, fun σ => ?_⟩
    · simp [flat, lazyVal, lazyCond, h2, g2]
    · simp [flat, lazyCond, h2, g2]
    · simp only [ev]; split <;> simp [h3, g3]
  | tern c a b ihc iha ihb =>
    obtain ⟨f1, f2, f3⟩ := ihc h.1
    obtain ⟨h1, h2, h3⟩ := iha h.2.1
    obtain ⟨g1, g2, g3⟩ := ihb h.2.2
    refine ⟨fun k => ?_, fun k lt lf => ?_, fun σ => ?_⟩
    · simp [flat, ternVal, f2, h1, g1]
    · simp [flat, deflt, ternVal, f2, h1, g1]
    · simp only [ev]; split <;> simp [f3, h3, g3]

end Verif.Flatten
