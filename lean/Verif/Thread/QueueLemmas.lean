import Verif.Thread.Queue

/-! # Queues: invariants -/

namespace Verif.Thread.Queue

abbrev Heap := Nat → Option (Nat × Option Nat)

/-- Holds the mutex. -/
def crit : Loc → Bool
  | .plink _ _ | .psig | .pwake | .punlock | .gtest | .cseq | .cunlock _ | .gtake | .gunlock _ => true
  | _ => false

/-- The node which only this thread knows. -/
def owns : Loc → Option Nat
  | .plock a _ | .plink a _ | .gunlock a | .gread a | .gfree a _ => some a
  | _ => none

/-- `m`: the values the thread took; `r`: those `qget` returned to it. -/
def valOk (h : Heap) (m r : List Nat) : Loc → Prop
  | .plock a v | .plink a v => h a = some (v, none) ∧ m = r
  | .gunlock a | .gread a => ∃ v nx, h a = some (v, nx) ∧ m = r ++ [v]
  | .gfree a v => h a ≠ none ∧ m = r ++ [v]
  | _ => m = r

def testOk (q : List (Nat × Nat)) : Loc → Prop
  | .cseq | .cunlock _ => q = []
  | .gtake => q ≠ []
  | _ => True

/-- The nodes of a list hang together. -/
def links (h : Heap) : List (Nat × Nat) → Prop
  | [] => True
  | (a, v) :: r => h a = some (v, r.head?.map Prod.fst) ∧ links h r

/-- The values taken by thread `t`. -/
def mine {n : Nat} (s : St n) (t : Fin n) : List Nat := (s.deq.filter fun x => x.1 = t).map Prod.snd

structure Inv {n : Nat} (s : St n) (q : List (Nat × Nat)) : Prop where
  ub : s.ub = false
  hold : ∀ t, crit (s.pc t) = true ↔ s.holder = some t
  hd : s.hd = q.head?.map Prod.fst
  tl : q ≠ [] → s.tl = q.getLast?.map Prod.fst
  lnk : links s.heap q
  nd : (q.map Prod.fst).Nodup
  hist : s.enq = s.deq.map Prod.snd ++ q.map Prod.snd
  own : ∀ t a, owns (s.pc t) = some a → a ∉ q.map Prod.fst
  own1 : ∀ t u a, owns (s.pc t) = some a → owns (s.pc u) = some a → t = u
  val : ∀ t, valOk s.heap (mine s t) (s.ret t) (s.pc t)
  test : ∀ t, testOk q (s.pc t)
  fin : ∃ b, ∀ a, b ≤ a → s.heap a = none

theorem links_congr {h h' : Heap} : ∀ {q : List (Nat × Nat)}, (∀ a ∈ q.map Prod.fst, h' a = h a) → links h q → links h' q
  | [], _, _ => trivial
  | (a, v) :: r, hc, hl => ⟨by rw [hc a (by simp)]; exact hl.1, links_congr (fun b hb => hc b (by simp at hb ⊢; exact .inr hb)) hl.2⟩

theorem links_alive {h : Heap} : ∀ {q : List (Nat × Nat)} {a : Nat}, links h q → a ∈ q.map Prod.fst → h a ≠ none
  | (b, v) :: r, a, hl, ha => by
    rw [List.map_cons, List.mem_cons] at ha
    rcases ha with rfl | ha
    · rw [hl.1]; nofun
    · exact links_alive hl.2 ha

theorem links_last {h : Heap} : ∀ {q : List (Nat × Nat)} {z y : Nat}, links h (q ++ [(z, y)]) → h z = some (y, none)
  | [], _, _, hl => hl.1
  | _ :: r, _, _, hl => links_last (q := r) hl.2

theorem sethp_same (h : Heap) (a : Nat) (x) : sethp h a x a = x := if_pos rfl
theorem sethp_ne (h : Heap) {a b : Nat} (x) (hb : b ≠ a) : sethp h a x b = h b := if_neg hb

theorem links_snoc {h : Heap} {a v : Nat} (ha : h a = some (v, none)) : ∀ {q : List (Nat × Nat)} {z y : Nat}, links h (q ++ [(z, y)]) →
    ((q ++ [(z, y)]).map Prod.fst).Nodup → a ≠ z → links (sethp h z (some (y, some a))) (q ++ [(z, y)] ++ [(a, v)])
  | [], z, y, hl, _, hz => ⟨sethp_same _ _ _, by rw [sethp_ne _ _ hz]; exact ha, trivial⟩
  | (b, x) :: r, z, y, hl, hn, hz => by
    have hbz : b ≠ z := by
      intro e
      subst e
      simp at hn
    refine ⟨?_, links_snoc ha hl.2 (List.nodup_cons.mp hn).2 hz⟩
    rw [sethp_ne _ _ hbz, hl.1]
    cases r <;> rfl

theorem valOk_congr {h h' : Heap} {m r : List Nat} {l : Loc} (hc : ∀ a, owns l = some a → h' a = h a) (hv : valOk h m r l) : valOk h' m r l := by
  cases l <;> first
    | exact hv
    | (simp only [owns, Option.some.injEq, forall_eq'] at hc; unfold valOk at hv ⊢; dsimp only at hv ⊢; rw [hc]; exact hv)

/-- A step which only moves thread `t` and takes or leaves the mutex. -/
theorem inv_move {n : Nat} {s : St n} {q : List (Nat × Nat)} (hi : Inv s q) (t : Fin n) (x : Loc) (h' : Option (Fin n)) (sg : Nat)
    (h1 : crit x = true ↔ h' = some t) (h2 : ∀ u, u ≠ t → (s.holder = some u ↔ h' = some u)) (h3 : owns x = owns (s.pc t) ∨ owns x = none)
    (h4 : valOk s.heap (mine s t) (s.ret t) x) (h5 : testOk q x) : Inv { s with holder := h', sigs := sg, pc := upd s.pc t x } q := by
  have sub : ∀ u a, owns (upd s.pc t x u) = some a → owns (s.pc u) = some a := by
    intro u a
    by_cases e : u = t
    · subst e
      rw [upd_same]
      rcases h3 with h3 | h3 <;> rw [h3]
      · exact id
      · nofun
    · rw [upd_ne _ _ e]; exact id
  have all : ∀ (P : Fin n → Loc → Prop), P t x → (∀ u, P u (s.pc u)) → ∀ u, P u (upd s.pc t x u) := by
    intro P hx hP u
    by_cases e : u = t
    · subst e; rw [upd_same]; exact hx
    · rw [upd_ne _ _ e]; exact hP u
  obtain ⟨i1, i2, i3, i4, i5, i6, i7, i8, i9, i10, i11, i12⟩ := hi
  refine ⟨i1, ?_, i3, i4, i5, i6, i7, fun u a hu => i8 u a (sub u a hu), fun u w a hu hw => i9 u w a (sub u a hu) (sub w a hw),
    all (fun u l => valOk s.heap (mine s u) (s.ret u) l) h4 i10, all (fun u l => testOk q l) h5 i11, i12⟩
  intro u
  by_cases e : u = t
  · subst e; dsimp only; rw [upd_same]; exact h1
  · dsimp only; rw [upd_ne _ _ e, i2 u]; exact h2 u e

theorem link_pc {n : Nat} (s : St n) (a v : Nat) : (link s a v).pc = s.pc := by
  unfold link
  repeat' split
  all_goals rfl

theorem inv_link {n : Nat} {s : St n} {q : List (Nat × Nat)} (hi : Inv s q) {t : Fin n} {a v : Nat} (hp : s.pc t = .plink a v) :
    Inv { link s a v with pc := upd (link s a v).pc t .psig } (q ++ [(a, v)]) := by
  have hval := hi.val t
  rw [hp] at hval
  obtain ⟨ha, hm⟩ := hval
  have haq := hi.own t a (by rw [hp]; rfl)
  have hother : ∀ u, u ≠ t → owns (s.pc u) ≠ some a := fun u hu e => hu (hi.own1 u t a e (by rw [hp]; rfl))
  have hmutex : ∀ u, u ≠ t → crit (s.pc u) = false := by
    intro u hu
    cases hc : crit (s.pc u)
    · rfl
    · have h1 := (hi.hold u).mp hc
      have h2 := (hi.hold t).mp (by rw [hp]; rfl)
      rw [h1] at h2; cases h2; exact absurd rfl hu
  have crit' : ∀ u, crit (upd s.pc t .psig u) = true ↔ s.holder = some u := by
    intro u
    by_cases e : u = t
    · subst e; rw [upd_same, ← hi.hold u, hp]; simp [crit]
    · rw [upd_ne _ _ e]; exact hi.hold u
  have test' : ∀ u, testOk (q ++ [(a, v)]) (upd s.pc t .psig u) := by
    intro u
    by_cases e : u = t
    · subst e; rw [upd_same]; trivial
    · rw [upd_ne _ _ e]
      have := hmutex u e
      cases h : s.pc u <;> rw [h] at this <;> first | trivial
  have own' : ∀ u b, owns (upd s.pc t .psig u) = some b → b ∉ (q ++ [(a, v)]).map Prod.fst := by
    intro u b hu
    by_cases e : u = t
    · subst e; rw [upd_same] at hu; cases hu
    · rw [upd_ne _ _ e] at hu
      have h1 := hi.own u b hu
      have h2 : b ≠ a := fun e' => hother u e (e' ▸ hu)
      simp at h1 ⊢
      exact ⟨h1, h2⟩
  have own1' : ∀ u w b, owns (upd s.pc t .psig u) = some b → owns (upd s.pc t .psig w) = some b → u = w := by
    intro u w b hu hw
    by_cases e : u = t
    · subst e; rw [upd_same] at hu; cases hu
    · by_cases e' : w = t
      · subst e'; rw [upd_same] at hw; cases hw
      · rw [upd_ne _ _ e] at hu; rw [upd_ne _ _ e'] at hw; exact hi.own1 u w b hu hw
  have nd' : ((q ++ [(a, v)]).map Prod.fst).Nodup := by
    rw [List.map_append, List.nodup_append]
    refine ⟨hi.nd, by simp, ?_⟩
    intro x hx y hy e
    simp at hy
    subst hy
    subst e
    exact haq hx
  have hist' : s.enq ++ [v] = s.deq.map Prod.snd ++ (q ++ [(a, v)]).map Prod.snd := by rw [hi.hist]; simp
  rw [link_pc]
  rcases List.eq_nil_or_concat q with rfl | ⟨q0, ⟨z, y⟩, hq⟩
  · have : link s a v = { s with hd := some a, tl := some a, enq := s.enq ++ [v] } := by unfold link; rw [hi.hd]; rfl
    rw [this]
    refine ⟨hi.ub, crit', rfl, fun _ => rfl, ⟨ha, trivial⟩, nd', hist', own', own1', ?_, test', hi.fin⟩
    intro u
    by_cases e : u = t
    · subst e; dsimp only; rw [upd_same]; exact hm
    · dsimp only; rw [upd_ne _ _ e]; exact hi.val u
  · rw [List.concat_eq_append] at hq
    subst hq
    have hz := links_last hi.lnk
    have htl := hi.tl (by simp)
    rw [List.getLast?_append] at htl
    have hhd : ∃ x, s.hd = some x := by rw [hi.hd]; cases q0 <;> exact ⟨_, rfl⟩
    obtain ⟨x, hx⟩ := hhd
    have haz : a ≠ z := by intro e; subst e; simp at haq
    have : link s a v = { s with heap := sethp s.heap z (some (y, some a)), tl := some a, enq := s.enq ++ [v] } := by
      unfold link; rw [hx]; dsimp only; rw [htl]; simp only [List.getLast?_singleton, Option.some_or, Option.map_some]; rw [hz]
    rw [this]
    refine ⟨hi.ub, crit', ?_, ?_, links_snoc ha hi.lnk hi.nd haz, nd', hist', own', own1', ?_, test', ?_⟩
    · show s.hd = _
      rw [hi.hd]; cases q0 <;> rfl
    · intro _; simp
    · intro u
      by_cases e : u = t
      · subst e; dsimp only; rw [upd_same]; exact hm
      · dsimp only; rw [upd_ne _ _ e]
        refine valOk_congr ?_ (hi.val u)
        intro b hb
        refine sethp_ne _ _ ?_
        intro e'
        have := hi.own u b hb
        rw [e'] at this
        simp at this
    · obtain ⟨b, hb⟩ := hi.fin
      refine ⟨b + z + 1, fun c hc => ?_⟩
      show sethp _ _ _ c = _
      rw [sethp_ne _ _ (by omega)]; exact hb c (by omega)

theorem inv_take {n : Nat} {s : St n} {b v : Nat} {r : List (Nat × Nat)} (hi : Inv s ((b, v) :: r)) {t : Fin n} (hp : s.pc t = .gtake) :
    Inv { s with hd := r.head?.map Prod.fst, deq := s.deq ++ [(t, v)], pc := upd s.pc t (.gunlock b) } r := by
  have hb := hi.lnk.1
  have hmutex : ∀ u, u ≠ t → crit (s.pc u) = false := by
    intro u hu
    cases hc : crit (s.pc u)
    · rfl
    · have h1 := (hi.hold u).mp hc
      have h2 := (hi.hold t).mp (by rw [hp]; rfl)
      rw [h1] at h2; cases h2; exact absurd rfl hu
  have mine_ne : ∀ u, u ≠ t → ((s.deq ++ [(t, v)]).filter fun x => x.1 = u).map Prod.snd = mine s u := by
    intro u hu
    simp [mine, Ne.symm hu]
  refine ⟨hi.ub, ?_, rfl, ?_, hi.lnk.2, (List.nodup_cons.mp hi.nd).2, ?_, ?_, ?_, ?_, ?_, hi.fin⟩ <;> dsimp only
  · intro u
    by_cases e : u = t
    · subst e; rw [upd_same, ← hi.hold u, hp]; simp [crit]
    · rw [upd_ne _ _ e]; exact hi.hold u
  · intro h
    rw [hi.tl (by simp)]
    cases r with
    | nil => exact absurd rfl h
    | cons c r => rw [List.getLast?_cons_cons]
  · rw [hi.hist]; simp
  · intro u a hu
    by_cases e : u = t
    · subst e; rw [upd_same] at hu; cases hu; exact (List.nodup_cons.mp hi.nd).1
    · rw [upd_ne _ _ e] at hu
      have := hi.own u a hu
      rw [List.map_cons, List.mem_cons, not_or] at this
      exact this.2
  · have key : ∀ u, u ≠ t → owns (s.pc u) ≠ some b := fun u _ h => by have := hi.own u b h; simp at this
    intro u w a hu hw
    by_cases e : u = t
    · subst e
      rw [upd_same] at hu
      cases hu
      by_cases e' : w = u
      · exact e'.symm
      · rw [upd_ne _ _ e'] at hw; exact absurd hw (key w e')
    · rw [upd_ne _ _ e] at hu
      by_cases e' : w = t
      · subst e'; rw [upd_same] at hw; cases hw; exact absurd hu (key u e)
      · rw [upd_ne _ _ e'] at hw; exact hi.own1 u w a hu hw
  · intro u
    by_cases e : u = t
    · subst e
      rw [upd_same]
      refine ⟨v, _, hb, ?_⟩
      have := hi.val u
      rw [hp] at this
      have this : mine s u = s.ret u := this
      rw [← this]
      simp [mine]
    · rw [upd_ne _ _ e]
      have := hi.val u
      show valOk s.heap (((s.deq ++ [(t, v)]).filter fun x => x.1 = u).map Prod.snd) _ _
      rw [mine_ne u e]
      exact this
  · intro u
    by_cases e : u = t
    · subst e; rw [upd_same]; trivial
    · rw [upd_ne _ _ e]
      have := hmutex u e
      cases h : s.pc u <;> rw [h] at this <;> first | cases this; done | trivial

theorem inv_alloc {n : Nat} {s : St n} {q : List (Nat × Nat)} (hi : Inv s q) {t : Fin n} {a v : Nat} (hp : s.pc t = .palloc v) (ha : s.heap a = none) :
    Inv { s with heap := sethp s.heap a (some (v, none)), pc := upd s.pc t (.plock a v) } q := by
  have haq : a ∉ q.map Prod.fst := fun h => links_alive hi.lnk h ha
  have hother : ∀ u, owns (s.pc u) ≠ some a := by
    intro u hu
    have hv := hi.val u
    cases h : s.pc u <;> rw [h] at hu hv <;> simp only [owns, Option.some.injEq, reduceCtorEq] at hu <;> subst hu <;>
      simp [valOk, ha] at hv
  refine ⟨hi.ub, ?_, hi.hd, hi.tl, links_congr (fun b hb => sethp_ne _ _ (fun e => haq (e ▸ hb))) hi.lnk, hi.nd, hi.hist, ?_, ?_, ?_, ?_, ?_⟩ <;> dsimp only
  · intro u
    by_cases e : u = t
    · subst e; rw [upd_same, ← hi.hold u, hp]; simp [crit]
    · rw [upd_ne _ _ e]; exact hi.hold u
  · intro u b hu
    by_cases e : u = t
    · subst e; rw [upd_same] at hu; cases hu; exact haq
    · rw [upd_ne _ _ e] at hu; exact hi.own u b hu
  · intro u w b hu hw
    by_cases e : u = t
    · subst e
      rw [upd_same] at hu
      cases hu
      by_cases e' : w = u
      · exact e'.symm
      · rw [upd_ne _ _ e'] at hw; exact absurd hw (hother w)
    · rw [upd_ne _ _ e] at hu
      by_cases e' : w = t
      · subst e'; rw [upd_same] at hw; cases hw; exact absurd hu (hother u)
      · rw [upd_ne _ _ e'] at hw; exact hi.own1 u w b hu hw
  · intro u
    by_cases e : u = t
    · subst e
      rw [upd_same]
      have := hi.val u
      rw [hp] at this
      exact ⟨sethp_same _ _ _, this⟩
    · rw [upd_ne _ _ e]
      exact valOk_congr (fun b hb => sethp_ne _ _ (fun e' => hother u (e' ▸ hb))) (hi.val u)
  · intro u
    by_cases e : u = t
    · subst e; rw [upd_same]; trivial
    · rw [upd_ne _ _ e]; exact hi.test u
  · obtain ⟨b, hb⟩ := hi.fin
    exact ⟨b + a + 1, fun c hc => by rw [sethp_ne _ _ (by omega)]; exact hb c (by omega)⟩

theorem inv_free {n : Nat} {s : St n} {q : List (Nat × Nat)} (hi : Inv s q) {t : Fin n} {b v : Nat} (hp : s.pc t = .gfree b v) :
    Inv { s with heap := sethp s.heap b none, ret := upd s.ret t (s.ret t ++ [v]), pc := upd s.pc t .out } q := by
  have hbq := hi.own t b (by rw [hp]; rfl)
  have hother : ∀ u, u ≠ t → owns (s.pc u) ≠ some b := fun u hu e => hu (hi.own1 u t b e (by rw [hp]; rfl))
  refine ⟨hi.ub, ?_, hi.hd, hi.tl, links_congr (fun a ha => sethp_ne _ _ (fun e => hbq (e ▸ ha))) hi.lnk, hi.nd, hi.hist, ?_, ?_, ?_, ?_, ?_⟩ <;> dsimp only
  · intro u
    by_cases e : u = t
    · subst e; rw [upd_same, ← hi.hold u, hp]; simp [crit]
    · rw [upd_ne _ _ e]; exact hi.hold u
  · intro u a hu
    by_cases e : u = t
    · subst e; rw [upd_same] at hu; cases hu
    · rw [upd_ne _ _ e] at hu; exact hi.own u a hu
  · intro u w a hu hw
    by_cases e : u = t
    · subst e; rw [upd_same] at hu; cases hu
    · rw [upd_ne _ _ e] at hu
      by_cases e' : w = t
      · subst e'; rw [upd_same] at hw; cases hw
      · rw [upd_ne _ _ e'] at hw; exact hi.own1 u w a hu hw
  · intro u
    by_cases e : u = t
    · subst e
      rw [upd_same, upd_same]
      have := hi.val u
      rw [hp] at this
      exact this.2
    · rw [upd_ne _ _ e, upd_ne _ _ e]
      exact valOk_congr (fun a ha => sethp_ne _ _ (fun e' => hother u e (e' ▸ ha))) (hi.val u)
  · intro u
    by_cases e : u = t
    · subst e; rw [upd_same]; trivial
    · rw [upd_ne _ _ e]; exact hi.test u
  · obtain ⟨c, hc⟩ := hi.fin
    refine ⟨c, fun a ha => ?_⟩
    by_cases e : a = b
    · subst e; exact sethp_same _ _ _
    · rw [sethp_ne _ _ e]; exact hc a ha

theorem inv_step {n : Nat} (s : St n) (e : Ev n) (s' : St n) (hi : ∃ q, Inv s q) (h : step s e = some s') : ∃ q, Inv s' q := by
  obtain ⟨q, hi⟩ := hi
  have hold := hi.hold
  -- within or without the mutex
  have stay : ∀ (t : Fin n) (x : Loc) (sg : Nat), crit x = crit (s.pc t) → (owns x = owns (s.pc t) ∨ owns x = none) →
      valOk s.heap (mine s t) (s.ret t) x → testOk q x → Inv { s with sigs := sg, pc := upd s.pc t x } q := fun t x sg h1 h2 h3 h4 =>
    inv_move hi t x s.holder sg (by rw [h1]; exact hold t) (fun _ _ => Iff.rfl) h2 h3 h4
  have lock : ∀ (t : Fin n) (x : Loc), s.holder = none → crit x = true → (owns x = owns (s.pc t) ∨ owns x = none) →
      valOk s.heap (mine s t) (s.ret t) x → testOk q x → Inv { s with holder := some t, pc := upd s.pc t x } q := fun t x h0 h1 h2 h3 h4 =>
    inv_move hi t x (some t) s.sigs (by rw [h1]; simp) (fun u hu => by rw [h0]; simp [Ne.symm hu]) h2 h3 h4
  have unlock : ∀ (t : Fin n) (x : Loc), crit (s.pc t) = true → crit x = false → (owns x = owns (s.pc t) ∨ owns x = none) →
      valOk s.heap (mine s t) (s.ret t) x → testOk q x → Inv { s with holder := none, pc := upd s.pc t x } q := fun t x h0 h1 h2 h3 h4 =>
    inv_move hi t x none s.sigs (by rw [h1]; simp) (fun u hu => by rw [(hold t).mp h0]; simp [Ne.symm hu]) h2 h3 h4
  cases e with
  | put t v =>
    unfold step at h
    dsimp only at h
    split at h <;> cases h
    rename_i hp
    have hv := hi.val t
    rw [hp] at hv
    exact ⟨q, stay t _ s.sigs (by rw [hp]; rfl) (.inr rfl) hv trivial⟩
  | get t =>
    unfold step at h
    dsimp only at h
    split at h <;> cases h
    rename_i hp
    have hv := hi.val t
    rw [hp] at hv
    exact ⟨q, stay t _ s.sigs (by rw [hp]; rfl) (.inr rfl) hv trivial⟩
  | spurious t again =>
    unfold step at h
    dsimp only at h
    cases hp : s.pc t <;> rw [hp] at h <;> cases h
    have hv := hi.val t
    rw [hp] at hv
    refine ⟨q, stay t _ s.sigs ?_ (.inr ?_) ?_ ?_⟩
    · rw [hp]; cases again <;> rfl
    · cases again <;> rfl
    · cases again <;> exact hv
    · cases again <;> trivial
  | go t a w =>
    unfold step go at h
    dsimp only at h
    have hv := hi.val t
    have ht := hi.test t
    cases hp : s.pc t with
    | out => rw [hp] at h; cases h
    | palloc v =>
      rw [hp] at h
      dsimp only at h
      split at h <;> cases h
      exact ⟨q, inv_alloc hi hp ‹_›⟩
    | plock b v =>
      rw [hp] at h hv
      dsimp only at h
      split at h <;> cases h
      exact ⟨q, lock t _ ‹_› rfl (.inl (by rw [hp]; rfl)) hv trivial⟩
    | plink b v => rw [hp] at h; cases h; exact ⟨_, inv_link hi hp⟩
    | psig => rw [hp] at h hv; cases h; exact ⟨q, stay t _ _ (by rw [hp]; rfl) (.inr rfl) hv trivial⟩
    | pwake =>
      rw [hp] at h hv
      dsimp only at h
      cases w with
      | none =>
        dsimp only at h
        split at h <;> cases h
        exact ⟨q, stay t _ s.sigs (by rw [hp]; rfl) (.inr rfl) hv trivial⟩
      | some u =>
        dsimp only at h
        cases hu : s.pc u <;> rw [hu] at h <;> cases h
        have hne : t ≠ u := by intro e; rw [e] at hp; rw [hp] at hu; cases hu
        have hvu := hi.val u
        rw [hu] at hvu
        have h1 := stay u .crelock s.sigs (by rw [hu]; rfl) (.inr rfl) hvu trivial
        have h2 := inv_move h1 t .punlock s.holder s.sigs
          (by rw [← hold t, hp]; simp [crit]) (fun _ _ => Iff.rfl) (.inr rfl) hv trivial
        exact ⟨q, h2⟩
    | punlock => rw [hp] at h hv; cases h; exact ⟨q, unlock t _ (by rw [hp]; rfl) rfl (.inr rfl) hv trivial⟩
    | glock =>
      rw [hp] at h hv
      dsimp only at h
      split at h <;> cases h
      exact ⟨q, lock t _ ‹_› rfl (.inr rfl) hv trivial⟩
    | gtest =>
      rw [hp] at h hv; cases h
      have hq := hi.hd
      refine ⟨q, stay t _ s.sigs ?_ ?_ ?_ ?_⟩
      · rw [hp]; split <;> rfl
      · right; split <;> rfl
      · split <;> exact hv
      · cases q with
        | nil => rw [hq]; exact rfl
        | cons c r => rw [hq]; exact List.cons_ne_nil _ _
    | cseq => rw [hp] at h hv ht; cases h; exact ⟨q, stay t _ s.sigs (by rw [hp]; rfl) (.inr rfl) hv ht⟩
    | cunlock k => rw [hp] at h hv; cases h; exact ⟨q, unlock t _ (by rw [hp]; rfl) rfl (.inr rfl) hv trivial⟩
    | cwait k =>
      rw [hp] at h hv; cases h
      refine ⟨q, stay t _ s.sigs ?_ ?_ ?_ ?_⟩
      · rw [hp]; split <;> rfl
      · right; split <;> rfl
      · split <;> exact hv
      · split <;> trivial
    | parked k => rw [hp] at h; cases h
    | crelock =>
      rw [hp] at h hv
      dsimp only at h
      split at h <;> cases h
      exact ⟨q, lock t _ ‹_› rfl (.inr rfl) hv trivial⟩
    | gtake =>
      rw [hp] at h ht
      cases q with
      | nil => exact absurd rfl ht
      | cons c r =>
        obtain ⟨b, v⟩ := c
        have hd : s.hd = some b := hi.hd
        dsimp only at h
        rw [hd] at h
        dsimp only at h
        rw [hi.lnk.1] at h
        cases h
        exact ⟨r, inv_take hi hp⟩
    | gunlock b => rw [hp] at h hv; cases h; exact ⟨q, unlock t _ (by rw [hp]; rfl) rfl (.inl (by rw [hp]; rfl)) hv trivial⟩
    | gread b =>
      rw [hp] at h hv
      obtain ⟨v, nx, hb, hm⟩ := hv
      dsimp only at h
      rw [hb] at h
      cases h
      exact ⟨q, stay t _ s.sigs (by rw [hp]; rfl) (.inl (by rw [hp]; rfl)) ⟨by rw [hb]; nofun, hm⟩ trivial⟩
    | gfree b v =>
      rw [hp] at h hv
      dsimp only at h
      cases hb : s.heap b with
      | none => exact absurd hb hv.1
      | some x => rw [hb] at h; cases h; exact ⟨q, inv_free hi hp⟩

theorem inv_init (n : Nat) : Inv (init n) [] := by
  refine ⟨rfl, ?_, rfl, nofun, trivial, List.nodup_nil, rfl, nofun, nofun, fun _ => rfl, fun _ => trivial, ⟨0, fun _ _ => rfl⟩⟩
  intro t
  simp [init, crit]

end Verif.Thread.Queue
