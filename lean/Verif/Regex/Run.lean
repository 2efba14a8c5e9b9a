import Verif.Regex.Vm

/-! # A whole run -/

namespace Verif.Regex
open Verif.Utf

variable {P : List Inst} {s : List Byte} {i : Nat} {w : Nat → Nat} {T : Nat → Groups → Prop} {whole : Bool}

theorem hitn_groups {n ip j : Nat} {g g' : Groups} (h : HitN P s n ip i g j g') : ∀ g2, ∃ g2', HitN P s n ip i g2 j g2' := by
  induction h with
  | here h => exact fun g2 => ⟨g2, .here h⟩
  | step hgo _ ih =>
    intro g2
    cases hgo with
    | byte h1 h2 => obtain ⟨g3, h3⟩ := ih g2; exact ⟨g3, .step (.byte h1 h2) h3⟩
    | range h1 h2 h4 h5 => obtain ⟨g3, h3⟩ := ih g2; exact ⟨g3, .step (.range h1 h2 h4 h5) h3⟩
    | lbra h1 => obtain ⟨g3, h3⟩ := ih _; exact ⟨g3, .step (.lbra h1) h3⟩
    | rbra h1 => obtain ⟨g3, h3⟩ := ih _; exact ⟨g3, .step (.rbra h1) h3⟩
    | bol h1 h2 => obtain ⟨g3, h3⟩ := ih g2; exact ⟨g3, .step (.bol h1 h2) h3⟩
    | eol h1 h2 => obtain ⟨g3, h3⟩ := ih g2; exact ⟨g3, .step (.eol h1 h2) h3⟩
    | forkl h1 => obtain ⟨g3, h3⟩ := ih g2; exact ⟨g3, .step (.forkl h1) h3⟩
    | forkr h1 => obtain ⟨g3, h3⟩ := ih g2; exact ⟨g3, .step (.forkr h1) h3⟩
    | jmp h1 => obtain ⟨g3, h3⟩ := ih g2; exact ⟨g3, .step (.jmp h1) h3⟩

/-- Can reach a `match` at `j`. -/
def Can (P : List Inst) (s : List Byte) (ip i j : Nat) : Prop := ∃ g g', Hit P s ip i g j g'

theorem Can.any {ip j : Nat} (h : Can P s ip i j) (g : Groups) : ∃ g', Hit P s ip i g j g' := by
  obtain ⟨g1, g2, n, h⟩ := h
  obtain ⟨g', h⟩ := hitn_groups h g
  exact ⟨g', n, h⟩

theorem hitn_le {n ip j : Nat} {g g' : Groups} (h : HitN P s n ip i g j g') : i ≤ j ∧ (i ≤ s.length → j ≤ s.length) := by
  induction h with
  | here h => exact ⟨Nat.le_refl _, id⟩
  | step hgo _ ih =>
    cases hgo with
    | byte h1 h2 =>
      have := (List.getElem?_eq_some_iff.mp h2).1
      exact ⟨by omega, fun _ => ih.2 (by omega)⟩
    | range h1 h2 h4 h5 =>
      have := (List.getElem?_eq_some_iff.mp h2).1
      exact ⟨by omega, fun _ => ih.2 (by omega)⟩
    | lbra h1 | rbra h1 | bol h1 | eol h1 | forkl h1 | forkr h1 | jmp h1 => exact ih

theorem Can.le {ip j : Nat} (h : Can P s ip i j) : i ≤ j ∧ (i ≤ s.length → j ≤ s.length) := by
  obtain ⟨_, _, _, h⟩ := h
  exact hitn_le h

/-- Where a match counts. -/
def Want (whole : Bool) (s : List Byte) (j : Nat) : Prop := whole = true → j = s.length

/-- A thread at byte `i` whose matches are matches of the whole run `T`. -/
def Good (P : List Inst) (s : List Byte) (T : Nat → Groups → Prop) (i : Nat) (t : Thr) : Prop :=
  t.ip < P.length ∧ t.mg.length = 16 ∧ ∀ j g', Hit P s t.ip i t.mg j g' → T j g'

/-- The total weight of a queue. -/
def wsum (w : Nat → Nat) (q : List Thr) : Nat := (q.map fun u => w u.ip).sum

/-- The state between two threads of one round. -/
structure Pre (P : List Inst) (s : List Byte) (T : Nat → Groups → Prop) (i : Nat) (vm : VM) : Prop where
  strp : vm.strp = i
  hi : i ≤ s.length
  runq : ∀ t ∈ vm.runq, Good P s T i t
  expired : ∀ t ∈ vm.expired, Good P s T (i + 1) t
  states : ∀ x, x ∈ vm.states ↔ ∃ t ∈ vm.expired, t.ip = x
  nomtch : ∀ t ∈ vm.expired, ∀ m, P[t.ip]? ≠ some (.mtch m)
  tail : vm.tail ≠ .stale
  last : i = s.length → vm.expired = [] ∧ vm.tail = .nil
  nthr : vm.nthr = (vm.runq.length : Int) + vm.expired.length

/-- A round that ends with an empty queue. -/
structure Round (P : List Inst) (s : List Byte) (T : Nat → Groups → Prop) (whole : Bool) (w : Nat → Nat) (i : Nat) (vm vm' : VM) : Prop where
  pre : Pre P s T i vm'
  empty : vm'.runq = []
  go : ∀ j, j ≠ i → (∃ t ∈ vm.runq, Can P s t.ip i j) → ∃ t ∈ vm'.expired, Can P s t.ip (i + 1) j
  keep : ∀ t ∈ vm.expired, t ∈ vm'.expired
  best : vm'.best = vm.best ∨ ∃ t, vm'.best = some t ∧ T i t.mg ∧ Want whole s i
  hit : Want whole s i → (∃ t ∈ vm.runq, Can P s t.ip i i) → ∃ t, vm'.best = some t ∧ T i t.mg
  nolast : i = s.length → ∀ t ∈ vm.runq, ¬ Can P s t.ip i i
  count : vm'.expired.length ≤ vm.expired.length + wsum w vm.runq

theorem inner_spec (hwf : Wf P) (hw : Weight P w) (fuel : Nat) : ∀ (vm : VM), Pre P s T i vm → wsum w vm.runq + 1 ≤ fuel →
    (∃ vm', inner (P.map encinst) s whole fuel vm = .ok (.next vm') ∧ Round P s T whole w i vm vm') ∨
    (∃ vm' t, inner (P.map encinst) s whole fuel vm = .ok (.done vm') ∧ i = s.length ∧ vm'.best = some t ∧ T i t.mg ∧ vm'.tail = .nil) := by
  induction fuel with
  | zero => intro vm _ h; omega
  | succ fuel ih =>
    intro vm hp hf
    cases hq : vm.runq with
    | nil =>
      refine .inl ⟨vm, by simp [inner, hq], ?_⟩
      exact {
        pre := hp
        empty := hq
        go := by simp [hq]
        keep := fun t ht => ht
        best := .inl rfl
        hit := by simp [hq]
        nolast := by simp [hq]
        count := by omega }
    | cons t q =>
      have hsum : wsum w vm.runq = w t.ip + wsum w q := by simp [wsum, hq]
      obtain ⟨ht1, ht2, ht3⟩ := hp.runq t (by simp [hq])
      obtain ⟨k, t', q', e, po⟩ := thread_spec (s := s) (i := i) hwf hw hp.hi t.ip fuel t (-1) q vm.nthr ht1 ht2 (by omega)
        (Nat.le_refl _) (.inl rfl)
      have hsum' : wsum w (q' ++ q) + 1 ≤ wsum w vm.runq := by
        have := po.pay
        rw [hsum]
        simp only [wsum, List.map_append, List.sum_append] at this ⊢
        omega
      have hgood : ∀ u ∈ q' ++ q, Good P s T i u := by
        intro u hu
        rcases List.mem_append.mp hu with hu | hu
        · obtain ⟨a, b, c⟩ := po.new u hu
          exact ⟨a, b, fun j g' h => ht3 j g' (c j g' h)⟩
        · exact hp.runq u (by simp [hq, hu])
      have hnthr := hp.nthr
      rw [hq] at hnthr
      simp only [List.length_cons] at hnthr
      -- going on after this thread was dropped
      have drop : ∀ (vm1 : VM) (fut now : Prop), Pre P s T i vm1 → vm1.runq = q' ++ q → vm1.expired.length ≤ vm.expired.length + 1 →
          (∀ u ∈ vm.expired, u ∈ vm1.expired) →
          (∀ j, j ≠ i → Can P s t.ip i j → (∃ u ∈ q', Can P s u.ip i j) ∨ ∃ u ∈ vm1.expired, Can P s u.ip (i + 1) j) →
          (vm1.best = vm.best ∨ ∃ t, vm1.best = some t ∧ T i t.mg ∧ Want whole s i) →
          (Can P s t.ip i i → (∃ u ∈ q', Can P s u.ip i i) ∨ (i ≠ s.length ∧ (Want whole s i → ∃ t, vm1.best = some t ∧ T i t.mg))) →
          (∃ vm', inner (P.map encinst) s whole fuel vm1 = .ok (.next vm') ∧ Round P s T whole w i vm vm') ∨
          (∃ vm' t, inner (P.map encinst) s whole fuel vm1 = .ok (.done vm') ∧ i = s.length ∧ vm'.best = some t ∧ T i t.mg ∧
            vm'.tail = .nil) := by
        intro vm1 _ _ h1 h2 h3 h4 h5 h6 h7
        rcases ih vm1 h1 (by rw [h2]; omega) with ⟨vm', e', r⟩ | h
        · refine .inl ⟨vm', e', ?_⟩
          exact {
            pre := r.pre
            empty := r.empty
            go := by
              rintro j hj ⟨u, hu, hc⟩
              rw [hq] at hu
              rcases List.mem_cons.mp hu with rfl | hu
              · rcases h5 j hj hc with ⟨v, hv, hc⟩ | ⟨v, hv, hc⟩
                · exact r.go j hj ⟨v, by rw [h2]; exact List.mem_append_left _ hv, hc⟩
                · exact ⟨v, r.keep v hv, hc⟩
              · exact r.go j hj ⟨u, by rw [h2]; exact List.mem_append_right _ hu, hc⟩
            keep := fun u hu => r.keep u (h4 u hu)
            best := by
              rcases r.best with hb | hb
              · rw [hb]; exact h6
              · exact .inr hb
            hit := by
              rintro hwant ⟨u, hu, hc⟩
              rw [hq] at hu
              rcases List.mem_cons.mp hu with rfl | hu
              · rcases h7 hc with ⟨v, hv, hc⟩ | ⟨-, h⟩
                · exact r.hit hwant ⟨v, by rw [h2]; exact List.mem_append_left _ hv, hc⟩
                · rcases r.best with hb | ⟨x, hb1, hb2, -⟩
                  · rw [hb]; exact h hwant
                  · exact ⟨x, hb1, hb2⟩
              · exact r.hit hwant ⟨u, by rw [h2]; exact List.mem_append_right _ hu, hc⟩
            nolast := by
              intro hl u hu hc
              rw [hq] at hu
              rcases List.mem_cons.mp hu with rfl | hu
              · rcases h7 hc with ⟨v, hv, hc⟩ | ⟨h, -⟩
                · exact r.nolast hl v (by rw [h2]; exact List.mem_append_left _ hv) hc
                · exact h hl
              · exact r.nolast hl u (by rw [h2]; exact List.mem_append_right _ hu) hc
            count := by
              have := r.count
              rw [h2] at this
              omega }
        · exact .inr h
      rw [inner]
      simp only [hq, hp.strp, e, Res.bind_ok]
      have hcan : ∀ j, Can P s t.ip i j → (k = .alive ∧ Can P s t'.ip (i + 1) j) ∨ (k = .matched ∧ j = i) ∨ ∃ u ∈ q', Can P s u.ip i j := by
        intro j hc
        obtain ⟨g', hc⟩ := hc.any t.mg
        rcases po.all j g' hc with ⟨h1, g2, h2⟩ | h | ⟨u, hu, g2, h2⟩
        · exact .inl ⟨h1, _, g2, h2⟩
        · exact .inr (.inl h)
        · exact .inr (.inr ⟨u, hu, _, g2, h2⟩)
      by_cases hdup : t'.ip ∈ vm.states
      · -- dropped as a duplicate, or dead
        have hkm : k ≠ .matched := by
          rintro rfl
          obtain ⟨m, hm⟩ := (po.matched rfl).1
          obtain ⟨u, hu, hue⟩ := (hp.states _).mp hdup
          exact hp.nomtch u hu m (by rw [hue]; exact hm)
        simp only [hdup, decide_true, if_true, true_and]
        obtain ⟨u, hu, hue⟩ := (hp.states _).mp hdup
        refine drop _ True True ?_ rfl (by simp) (fun u hu => hu) ?_ (.inl rfl) ?_
        · exact {
            strp := rfl, hi := hp.hi, runq := hgood, expired := hp.expired, states := hp.states, nomtch := hp.nomtch
            tail := hp.tail, last := hp.last
            nthr := by
              simp only [List.length_append]
              cases k <;> simp at * <;> omega }
        · intro j hj hc
          rcases hcan j hc with ⟨-, h⟩ | ⟨h, -⟩ | h
          · refine .inr ⟨u, hu, ?_⟩
            rw [hue]
            exact h
          · exact (hkm h).elim
          · exact .inl h
        · intro hc
          rcases hcan i hc with ⟨-, h⟩ | ⟨h, -⟩ | h
          · have := h.le.1; omega
          · exact (hkm h).elim
          · exact .inl h
      · simp only [hdup, decide_false, Bool.false_eq_true, if_false, false_and]
        cases k with
        | dead =>
          simp only
          refine drop _ True True ?_ rfl (by simp) (fun u hu => hu) ?_ (.inl rfl) ?_
          · exact {
              strp := rfl, hi := hp.hi, runq := hgood, expired := hp.expired, states := hp.states, nomtch := hp.nomtch
              tail := hp.tail, last := hp.last
              nthr := by simp only [List.length_append]; simp; omega }
          · intro j hj hc
            rcases hcan j hc with ⟨h, -⟩ | ⟨h, -⟩ | h
            · cases h
            · cases h
            · exact .inl h
          · intro hc
            rcases hcan i hc with ⟨h, -⟩ | ⟨h, -⟩ | h
            · cases h
            · cases h
            · exact .inl h
        | matched =>
          simp only
          have hT : T i t'.mg := ht3 _ _ (po.matched rfl).2
          by_cases hl : i = s.length
          · rw [if_pos hl]
            exact .inr ⟨_, t', rfl, hl, rfl, hT, (hp.last hl).2⟩
          · rw [if_neg hl]
            have pre' : ∀ b, Pre P s T i (VM.mk (q' ++ q) vm.expired vm.tail vm.states b
                (vm.nthr + q'.length - (if Kind.matched = Kind.alive then 0 else 1)) i) := fun b => {
              strp := rfl, hi := hp.hi, runq := hgood, expired := hp.expired, states := hp.states, nomtch := hp.nomtch
              tail := hp.tail, last := hp.last
              nthr := by simp only [List.length_append]; simp; omega }
            cases whole with
            | true =>
              simp only [not_true_eq_false, if_false]
              refine drop _ True True (pre' _) rfl (by simp) (fun u hu => hu) ?_ (.inl rfl) ?_
              · intro j hj hc
                rcases hcan j hc with ⟨h, -⟩ | ⟨-, h⟩ | h
                · cases h
                · exact (hj h).elim
                · exact .inl h
              · intro _
                exact .inr ⟨hl, fun h => (hl (h rfl)).elim⟩
            | false =>
              rw [if_pos (by simp)]
              refine drop _ True True (pre' _) rfl (by simp) (fun u hu => hu) ?_ (.inr ⟨t', rfl, hT, by simp [Want]⟩) ?_
              · intro j hj hc
                rcases hcan j hc with ⟨h, -⟩ | ⟨-, h⟩ | h
                · cases h
                · exact (hj h).elim
                · exact .inl h
              · intro _
                exact .inr ⟨hl, fun _ => ⟨t', rfl, hT⟩⟩
        | alive =>
          simp only
          obtain ⟨a1, a2, a3, a4, a5⟩ := po.alive rfl
          have hex : ∀ n, expire (VM.mk (q' ++ q) vm.expired vm.tail vm.states vm.best n i) t' =
              .ok (VM.mk (q' ++ q) (vm.expired ++ [t']) .last (t'.ip :: vm.states) vm.best n i) := by
            intro n
            have := hp.tail
            unfold expire
            cases htl : vm.tail <;> simp_all
          rw [hex, Res.bind_ok]
          refine drop _ True True ?_ rfl (by simp) (fun u hu => List.mem_append_left _ hu) ?_ (.inl rfl) ?_
          · exact {
              strp := rfl, hi := hp.hi, runq := hgood
              expired := by
                intro u hu
                rcases List.mem_append.mp hu with hu | hu
                · exact hp.expired u hu
                · cases List.mem_singleton.mp hu
                  exact ⟨a2, a3, fun j g' h => ht3 j g' (a5 j g' h)⟩
              states := by
                intro x
                simp only [List.mem_cons, List.mem_append]
                constructor
                · rintro (rfl | h)
                  · exact ⟨t', .inr (.inl rfl), rfl⟩
                  · obtain ⟨u, hu, h⟩ := (hp.states x).mp h
                    exact ⟨u, .inl hu, h⟩
                · rintro ⟨u, hu | hu, h⟩
                  · exact .inr ((hp.states x).mpr ⟨u, hu, h⟩)
                  · rcases hu with rfl | hu
                    · exact .inl h.symm
                    · simp at hu
              nomtch := by
                intro u hu
                rcases List.mem_append.mp hu with hu | hu
                · exact hp.nomtch u hu
                · cases List.mem_singleton.mp hu
                  exact a4
              tail := by simp
              last := by intro h; omega
              nthr := by simp only [List.length_append]; simp; omega }
          · intro j hj hc
            rcases hcan j hc with ⟨-, h⟩ | ⟨h, -⟩ | h
            · exact .inr ⟨t', List.mem_append_right _ (List.mem_singleton.mpr rfl), h⟩
            · cases h
            · exact .inl h
          · intro hc
            rcases hcan i hc with ⟨-, h⟩ | ⟨h, -⟩ | h
            · have := h.le.1; omega
            · cases h
            · exact .inl h

/-- The answer of a run. -/
def Answer (s : List Byte) (T : Nat → Groups → Prop) (whole : Bool) (best : Option Thr) : Prop :=
  (best = none ∧ ∀ j g, Want whole s j → ¬ T j g) ∨
  ∃ t jb, best = some t ∧ Want whole s jb ∧ T jb t.mg ∧ ∀ j g, Want whole s j → T j g → j ≤ jb

/-- Rounds needed. -/
def need (M : Nat) : Nat → Nat → Nat
  | 0, x => x + 2
  | r + 1, x => x + 2 + need M r (x * M)

theorem wsum_le (M : Nat) (q : List Thr) (h : ∀ t ∈ q, w t.ip ≤ M) : wsum w q ≤ q.length * M := by
  induction q with
  | nil => simp [wsum]
  | cons t q ih =>
    have h1 := ih fun u hu => h u (List.mem_cons_of_mem _ hu)
    have h2 := h t (by simp)
    simp only [wsum, List.map_cons, List.sum_cons, List.length_cons] at h1 ⊢
    rw [Nat.add_mul]
    omega

theorem outer_spec (hwf : Wf P) (hw : Weight P w) {M : Nat} (hM : ∀ ip, ip < P.length → w ip ≤ M) (hT : ∀ j g, T j g → j ≤ s.length)
    (r : Nat) : ∀ (i fuel x : Nat) (vm : VM), vm.strp = i → s.length + 1 - i ≤ r → (i ≤ s.length ∨ vm.runq = []) →
    (∀ t ∈ vm.runq, Good P s T i t) → vm.expired = [] → vm.states = [] → vm.tail = .nil → vm.nthr = vm.runq.length →
    (∀ j g, T j g → i ≤ j → ∃ t ∈ vm.runq, Can P s t.ip i j) →
    ((vm.best = none ∧ ∀ j g, j < i → Want whole s j → ¬ T j g) ∨
      ∃ t jb, vm.best = some t ∧ jb < i ∧ Want whole s jb ∧ T jb t.mg ∧ ∀ j g, j < i → Want whole s j → T j g → j ≤ jb) →
    wsum w vm.runq ≤ x → need M r x ≤ fuel →
    ∃ vm', outer (P.map encinst) s whole fuel vm = .ok vm' ∧ vm'.tail = .nil ∧ Answer s T whole vm'.best ∧
      (vm'.best = none → vm'.nthr = 0) := by
  induction r with
  | zero =>
    intro i fuel x vm h1 h2 h3 hg h4 h5 h6 h7 hc hb hx hf
    have hq : vm.runq = [] := by rcases h3 with h | h; · omega
                                 · exact h
    rw [hq] at h7
    cases fuel with
    | zero => simp [need] at hf
    | succ fuel =>
      refine ⟨vm, ?_, h6, ?_, fun _ => by simpa using h7⟩
      · rw [outer, if_neg (by simp at h7; omega)]
      · have all : ∀ j g, T j g → j < i := by
          intro j g hj
          by_contra hlt
          obtain ⟨t, ht, -⟩ := hc j g hj (by omega)
          simp [hq] at ht
        rcases hb with ⟨hb, h⟩ | ⟨t, jb, hb, -, h9, h10, h⟩
        · exact .inl ⟨hb, fun j g hwj hj => h j g (all j g hj) hwj hj⟩
        · exact .inr ⟨t, jb, hb, h9, h10, fun j g hwj hj => h j g (all j g hj) hwj hj⟩
  | succ r ih =>
    intro i fuel x vm h1 h2 h3 hg h4 h5 h6 h7 hc hb hx hf
    cases fuel with
    | zero => simp [need] at hf
    | succ fuel =>
      rw [outer]
      by_cases hq : vm.runq = []
      · rw [hq] at h7
        refine ⟨vm, ?_, h6, ?_, fun _ => by simpa using h7⟩
        · rw [if_neg (by simp at h7; omega)]
        · have all : ∀ j g, T j g → j < i := by
            intro j g hj
            by_contra hlt
            obtain ⟨t, ht, -⟩ := hc j g hj (by omega)
            simp [hq] at ht
          rcases hb with ⟨hb, h⟩ | ⟨t, jb, hb, -, h9, h10, h⟩
          · exact .inl ⟨hb, fun j g hwj hj => h j g (all j g hj) hwj hj⟩
          · exact .inr ⟨t, jb, hb, h9, h10, fun j g hwj hj => h j g (all j g hj) hwj hj⟩
      · have hi : i ≤ s.length := by
          rcases h3 with h | h
          · exact h
          · exact (hq h).elim
        have hpos : 0 < vm.runq.length := List.length_pos_iff.mpr hq
        rw [if_pos (by omega)]
        have hpre : Pre P s T i vm := {
          strp := h1, hi := hi, runq := hg, expired := by simp [h4], states := by simp [h4, h5], nomtch := by simp [h4]
          tail := by simp [h6], last := fun _ => ⟨h4, h6⟩, nthr := by simp [h4, h7] }
        simp only [need] at hf
        rcases inner_spec (whole := whole) hwf hw fuel vm hpre (by omega) with ⟨vm1, e, rd⟩ | ⟨vm1, t, e, hl, hbt, hTt, htl⟩
        · rw [e, Res.bind_ok]
          simp only
          refine ih (i + 1) fuel (x * M) _ (by simp [rd.pre.strp]) (by omega) ?_ rd.pre.expired rfl rfl rfl ?_ ?_ ?_ ?_ (by omega)
          · by_cases h : i = s.length
            · exact .inr (rd.pre.last h).1
            · exact .inl (by omega)
          · have := rd.pre.nthr
            rw [rd.empty] at this
            simpa using this
          · intro j g hj hij
            obtain ⟨t, ht, hcan⟩ := hc j g hj (by omega)
            exact rd.go j (by omega) ⟨t, ht, hcan⟩
          · by_cases hhit : Want whole s i ∧ ∃ g, T i g
            · obtain ⟨hwi, g, hTi⟩ := hhit
              obtain ⟨t, h1, h2⟩ := rd.hit hwi (hc i g hTi (Nat.le_refl _))
              exact .inr ⟨t, i, h1, by omega, hwi, h2, fun j g hj _ _ => by omega⟩
            · have hbest : vm1.best = vm.best := by
                rcases rd.best with h | ⟨t, h1, h2, h3⟩
                · exact h
                · exact (hhit ⟨h3, _, h2⟩).elim
              have lt : ∀ j g, j < i + 1 → Want whole s j → T j g → j < i := by
                intro j g hj hwj hTj
                by_contra hge
                have : j = i := by omega
                rw [this] at hwj hTj
                exact hhit ⟨hwj, g, hTj⟩
              rcases hb with ⟨hb, h⟩ | ⟨t, jb, hb, h8, h9, h10, h⟩
              · exact .inl ⟨hbest.trans hb, fun j g hj hwj hTj => h j g (lt j g hj hwj hTj) hwj hTj⟩
              · exact .inr ⟨t, jb, hbest.trans hb, by omega, h9, h10,
                  fun j g hj hwj hTj => h j g (lt j g hj hwj hTj) hwj hTj⟩
          · have h1 := rd.count
            rw [h4] at h1
            have h2 := wsum_le M vm1.expired (w := w) fun t ht => hM _ (rd.pre.expired t ht).1
            refine Nat.le_trans h2 (Nat.mul_le_mul_right _ ?_)
            simp at h1
            omega
        · rw [e, Res.bind_ok]
          refine ⟨vm1, rfl, htl, .inr ⟨t, i, hbt, fun _ => hl, hTt, ?_⟩, by simp [hbt]⟩
          intro j g _ hTj
          rw [hl]
          exact hT j g hTj

theorem bound_exists (w : Nat → Nat) (n : Nat) : ∃ M, ∀ ip, ip < n → w ip ≤ M := by
  induction n with
  | zero => exact ⟨0, by omega⟩
  | succ n ih =>
    obtain ⟨M, h⟩ := ih
    refine ⟨M + w n, fun ip hip => ?_⟩
    by_cases he : ip = n
    · rw [he]; omega
    · have := h ip (by omega); omega

/-- **A run ends and answers.** -/
theorem run_spec (hwf : Wf P) (hfin : ∀ ip, Fin P ip) (hne : P ≠ []) (nm : Nat) (hnm : nm ≤ 16) (s : List Byte) (whole : Bool) :
    ∃ N, ∀ fuel, N ≤ fuel → ∃ vm, run { code := P.map encinst, nmatch := nm } fuel Obj.fresh s whole = .ok vm ∧ vm.tail = .nil ∧
      Answer s (fun j g => Hit P s 0 0 .none j g) whole vm.best ∧ (vm.best = none → vm.nthr = 0) := by
  obtain ⟨w, hw⟩ := weight_exists hfin
  obtain ⟨M, hM⟩ := bound_exists w P.length
  refine ⟨need M (s.length + 1) (w 0), fun fuel hf => ?_⟩
  unfold run
  simp only
  rw [if_neg (by omega)]
  refine outer_spec (T := fun j g => Hit P s 0 0 .none j g) hwf hw hM ?_ (s.length + 1) 0 fuel (w 0) _ rfl (by omega) (.inl (by omega)) ?_ rfl rfl rfl rfl ?_
    (.inl ⟨rfl, fun j g hj => by omega⟩) (by simp [wsum]) hf
  · rintro j g ⟨n, h⟩
    exact (hitn_le h).2 (by omega)
  · intro t ht
    cases List.mem_singleton.mp ht
    exact ⟨List.length_pos_iff.mpr hne, by simp, fun j g' h => h⟩
  · intro j g hj _
    exact ⟨_, List.mem_singleton.mpr rfl, _, g, hj⟩

end Verif.Regex
