import Verif.Regex.Grammar
import Verif.Regex.Text
import Verif.Sort.Props

/-! # The parser reads the grammar -/

namespace Verif.Regex
open Verif.Utf

variable {pat : List Byte} {ps ds cs : List Char32} {st : St} {c : Char32}

/-- The state stands between `ps` and `ds`. -/
def Pos (pat : List Byte) (ps ds : List Char32) (st : St) : Prop :=
  pat = enc (ps ++ ds) ∧ CodePoints (ps ++ ds) ∧ st.idx = (enc ps).length

theorem Pos.slice (h : Pos pat ps ds st) : slice pat st.idx pat.length = .ok (enc ds) := by
  obtain ⟨rfl, -, h2⟩ := h
  rw [h2, slice_suffix, enc_append, List.drop_left']
  · rfl
  · simp [enc_append]

theorem Pos.peek (h : Pos pat ps (c :: ds) st) : peekc pat st = .ok c := by
  unfold peekc decode
  rw [h.slice, Res.bind_ok, enc_cons, charstep_utf8 _ (h.2.1 c (by simp)), Utf.ofNat_toNat]
  rfl

theorem Pos.peek_nil (h : Pos pat ps [] st) : peekc pat st = .ok Badchar := by
  unfold peekc decode
  rw [h.slice, Res.bind_ok]
  rfl

theorem charlen_utf8 (h : c.toNat < 0x110000) : charlen c = (utf8 c.toNat).length := by
  rw [charlen_nat]
  unfold utf8
  (repeat' split) <;> first | rfl | omega

/-- The state after `c`. -/
def adv (st : St) (c : Char32) : St := { st with idx := st.idx + (utf8 c.toNat).length }

theorem Pos.adv (h : Pos pat ps (c :: ds) st) : Pos pat (ps ++ [c]) ds (adv st c) := by
  obtain ⟨h1, h2, h3⟩ := h
  refine ⟨by simpa using h1, by simpa using h2, ?_⟩
  simp only [Regex.adv, h3, enc_append, List.length_append]
  simp [enc]

theorem Pos.getc (h : Pos pat ps (c :: ds) st) : getc pat st = .ok (c, Regex.adv st c) := by
  unfold Regex.getc
  rw [h.peek, Res.bind_ok, charlen_utf8 (h.2.1 c (by simp))]
  rfl

theorem Pos.yes (h : Pos pat ps (c :: ds) st) : matchc pat st c = .ok (true, Regex.adv st c) := by
  unfold matchc
  rw [h.peek, Res.bind_ok, if_neg (by simp), charlen_utf8 (h.2.1 c (by simp))]
  rfl

theorem Pos.no (h : Pos pat ps ds st) (hc : ds.head? ≠ some c) (hb : c ≠ Badchar) : matchc pat st c = .ok (false, st) := by
  unfold matchc
  cases ds with
  | nil => rw [h.peek_nil, Res.bind_ok, if_pos hb.symm]; rfl
  | cons d ds =>
    rw [h.peek, Res.bind_ok, if_pos (by simpa using hc)]; rfl

theorem Pos.len (h : Pos pat ps (c :: ds) st) : pat.length ≠ st.idx ∧ pat.length > st.idx := by
  obtain ⟨rfl, h2, h3⟩ := h
  have := utf8_pos c.toNat
  simp only [enc_append, enc_cons, List.length_append] at h3 ⊢
  omega

theorem Pos.len_nil (h : Pos pat ps [] st) : pat.length = st.idx := by
  obtain ⟨rfl, h2, h3⟩ := h
  simp [h3]

/-! ## Bracket expressions -/

/-- The range of an item. -/
def Item.rng (it : Item) : Rng :=
  match it.snd with
  | none => (it.fst, it.fst)
  | some d => if it.fst ≤ d then (it.fst, d) else (d, it.fst)

theorem Item.rng_lo (it : Item) : it.rng.1.toNat = it.lo := by
  obtain ⟨a, b⟩ := it
  cases b with
  | none => rfl
  | some d =>
    simp only [Item.rng, Item.lo, BitVec.le_def]
    split <;> simp only <;> omega

theorem Item.rng_hi (it : Item) : it.rng.2.toNat = it.hi := by
  obtain ⟨a, b⟩ := it
  cases b with
  | none => rfl
  | some d =>
    simp only [Item.rng, Item.hi, BitVec.le_def]
    split <;> simp only <;> omega

theorem Item.le (it : Item) : it.lo ≤ it.hi := by
  obtain ⟨a, b⟩ := it
  cases b with
  | none => exact Nat.le_refl _
  | some d => simp only [Item.lo, Item.hi]; omega

/-- The state after `cs`. -/
def advs (st : St) (cs : List Char32) : St := { st with idx := st.idx + (enc cs).length }

theorem advs_nil : advs st [] = st := by simp [advs, enc]
theorem advs_cons : advs (adv st c) cs = advs st (c :: cs) := by
  simp [advs, adv, enc_cons, Nat.add_assoc]
theorem advs_append (cs' : List Char32) : advs (advs st cs) cs' = advs st (cs ++ cs') := by
  simp [advs, enc_append, Nat.add_assoc]
theorem advs_one : advs st [c] = adv st c := by
  rw [← advs_cons, advs_nil]

theorem Pos.advs (h : Pos pat ps (cs ++ ds) st) : Pos pat (ps ++ cs) ds (advs st cs) := by
  obtain ⟨h1, h2, h3⟩ := h
  refine ⟨by simpa using h1, by simpa using h2, ?_⟩
  simp only [Regex.advs, h3, enc_append, List.length_append]

theorem head_ne {a b : Char32} (h : a ≠ b) (ds : List Char32) : (a :: ds).head? ≠ some b := by
  simpa using h

theorem rangematch_item (it : Item) (h : Pos pat ps (it.chars ++ ds) st) (hd : ds.head? ≠ some 45#32) :
    rangematch pat st = .ok (it.rng, advs st it.chars) := by
  obtain ⟨a, b⟩ := it
  cases b with
  | none =>
    simp only [Item.chars, List.cons_append, List.nil_append] at h
    unfold rangematch
    rw [h.getc]
    simp only [Res.bind_ok]
    rw [h.adv.no hd (by decide)]
    simp only [Res.bind_ok, rangehi, Bool.false_eq_true, if_false, Res.pure_eq, Item.rng, Item.chars, advs_one]
  | some d =>
    simp only [Item.chars, List.cons_append, List.nil_append] at h
    unfold rangematch
    rw [h.getc]
    simp only [Res.bind_ok]
    rw [h.adv.yes]
    simp only [Res.bind_ok, rangehi, if_true]
    rw [h.adv.adv.getc]
    simp only [Res.bind_ok, Res.pure_eq, Item.rng, Item.chars, ← advs_cons, advs_nil]

theorem ok_head {items : List Item} (h : ∀ it ∈ items, it.ok) (ds : List Char32) (x : Char32)
    (hx : x.toNat ∈ [93, 45, 94]) (hd : ds.head? ≠ some x) : (items.flatMap Item.chars ++ ds).head? ≠ some x := by
  cases items with
  | nil => simpa using hd
  | cons it items =>
    have h1 := (h it (by simp)).2
    have : (List.flatMap Item.chars (it :: items) ++ ds).head? = some it.fst := by
      obtain ⟨a, b⟩ := it
      cases b <;> simp [Item.chars]
    rw [this]
    intro he
    simp only [Option.some.injEq] at he
    rw [he] at h1
    exact h1 hx

theorem classloop_items (items : List Item) : ∀ (ps : List Char32) (st : St) (rl : List Rng) (fuel : Nat), (∀ it ∈ items, it.ok) →
    Pos pat ps (items.flatMap Item.chars ++ 93#32 :: ds) st → items.length < fuel →
    classloop pat fuel st rl = .ok (rl ++ items.map Item.rng, advs st (items.flatMap Item.chars)) := by
  induction items with
  | nil =>
    intro ps st rl fuel _ h hf
    cases fuel with
    | zero => simp at hf
    | succ fuel =>
      simp only [List.flatMap_nil, List.nil_append] at h
      rw [classloop, h.peek, Res.bind_ok, if_neg (by simp)]
      simp [advs_nil]
  | cons it items ih =>
    intro ps st rl fuel hok h hf
    cases fuel with
    | zero => simp at hf
    | succ fuel =>
      rw [List.flatMap_cons, List.append_assoc] at h
      have hrm := rangematch_item it h (ok_head (fun i hi => hok i (by simp [hi])) _ 45#32 (by decide) (by simp))
      have hpk : ∃ ds', Pos pat ps (it.fst :: ds') st := by
        obtain ⟨a, b⟩ := it
        cases b with
        | none => exact ⟨_, h⟩
        | some d => exact ⟨_, h⟩
      obtain ⟨ds', hpk⟩ := hpk
      have hne : it.fst ≠ 93#32 := by
        intro he
        apply (hok it (by simp)).2
        rw [he]
        decide
      rw [classloop, hpk.peek, Res.bind_ok, if_pos ⟨hne, hpk.len.2⟩, hrm]
      simp only [Res.bind_ok]
      rw [ih _ _ _ fuel (fun i hi => hok i (by simp [hi])) h.advs (by simp at hf; omega)]
      simp [advs_append]

theorem rngcmp_nat (a b : Rng) : (rngcmp b a ≠ .before) ↔ a.1.toNat ≤ b.1.toNat := by
  simp only [rngcmp, BitVec.lt_def]
  constructor
  · intro h
    by_contra hlt
    exact h (by rw [if_pos (by omega)])
  · intro h
    rw [if_neg (by omega)]
    split <;> simp

theorem rng_pre : Sort.Preorder' rngcmp := by
  constructor
  · intro a b h
    rw [rngcmp_nat]
    simp only [rngcmp, BitVec.lt_def] at h
    split at h
    · omega
    · split at h <;> simp at h
  · intro a b c h1 h2
    rw [rngcmp_nat] at *
    omega

/-- Sorted by start and by end, with every range in order and below `B`. -/
structure Sorted (B : Nat) (rl : List Rng) : Prop where
  pw : rl.Pairwise fun a b => a.1.toNat ≤ b.1.toNat ∧ a.2.toNat ≤ b.2.toNat
  ok : ∀ r ∈ rl, r.1.toNat ≤ r.2.toNat ∧ r.2.toNat < B

/-- Sorted with gaps. -/
structure Gaps (B : Nat) (rl : List Rng) : Prop where
  pw : rl.Pairwise fun a b => a.2.toNat + 1 < b.1.toNat
  ok : ∀ r ∈ rl, r.1.toNat ≤ r.2.toNat ∧ r.2.toNat < B

theorem mem_cons (r : Rng) (rl : List Rng) (c : Nat) : Mem (r :: rl) c ↔ (r.1.toNat ≤ c ∧ c ≤ r.2.toNat) ∨ Mem rl c := by
  simp [Mem]

theorem mem_nil (c : Nat) : ¬ Mem [] c := by simp [Mem]

theorem mergeLoop_spec (rl : List Rng) : ∀ (lo hi : Char32), Sorted 0x80 rl → lo.toNat ≤ hi.toNat → hi.toNat < 0x80 →
    (∀ r ∈ rl, lo.toNat ≤ r.1.toNat ∧ hi.toNat ≤ r.2.toNat) →
    Gaps 0x80 (mergeLoop rl lo hi) ∧ (∀ c, Mem (mergeLoop rl lo hi) c ↔ (lo.toNat ≤ c ∧ c ≤ hi.toNat) ∨ Mem rl c) ∧
      ∀ r ∈ mergeLoop rl lo hi, lo.toNat ≤ r.1.toNat := by
  induction rl with
  | nil =>
    intro lo hi _ h1 h2 _
    simp only [mergeLoop]
    refine ⟨⟨List.pairwise_singleton _ _, ?_⟩, ?_, ?_⟩
    · intro r hr; cases List.mem_singleton.mp hr; exact ⟨h1, h2⟩
    · intro c; rw [mem_cons]
    · intro r hr; cases List.mem_singleton.mp hr; exact Nat.le_refl _
  | cons r rl ih =>
    intro lo hi hs h1 h2 h3
    have hpw := List.pairwise_cons.mp hs.pw
    have hr := hs.ok r (by simp)
    have hlr := h3 r (by simp)
    have hs' : Sorted 0x80 rl := ⟨hpw.2, fun x hx => hs.ok x (List.mem_cons_of_mem _ hx)⟩
    have hadd : (hi + 1).toNat = hi.toNat + 1 := by
      rw [BitVec.toNat_add]
      simp
      omega
    simp only [mergeLoop, BitVec.le_def, hadd]
    by_cases hm : r.1.toNat ≤ hi.toNat + 1
    · rw [if_pos hm]
      obtain ⟨g1, g2, g3⟩ := ih lo r.2 hs' (by omega) hr.2 (fun x hx => ⟨(h3 x (List.mem_cons_of_mem _ hx)).1, (hpw.1 x hx).2⟩)
      refine ⟨g1, fun c => ?_, g3⟩
      rw [g2, mem_cons]
      constructor
      · rintro (h | h)
        · by_cases hc : c ≤ hi.toNat
          · exact .inl ⟨h.1, hc⟩
          · exact .inr (.inl ⟨by omega, h.2⟩)
        · exact .inr (.inr h)
      · rintro (h | h | h)
        · exact .inl ⟨h.1, by omega⟩
        · exact .inl ⟨by omega, h.2⟩
        · exact .inr h
    · rw [if_neg hm]
      obtain ⟨g1, g2, g3⟩ := ih r.1 r.2 hs' hr.1 hr.2 (fun x hx => hpw.1 x hx)
      refine ⟨⟨List.pairwise_cons.mpr ⟨fun x hx => ?_, g1.pw⟩, ?_⟩, fun c => ?_, ?_⟩
      · have := g3 x hx
        simp only
        omega
      · intro x hx
        rcases List.mem_cons.mp hx with rfl | hx
        · exact ⟨h1, h2⟩
        · exact g1.ok x hx
      · rw [mem_cons, g2, mem_cons]
      · intro x hx
        rcases List.mem_cons.mp hx with rfl | hx
        · exact Nat.le_refl _
        · have := g3 x hx
          omega

theorem merge_spec (rl : List Rng) (hne : rl ≠ []) (h : Sorted 0x80 rl) :
    Gaps 0x80 (merge rl) ∧ merge rl ≠ [] ∧ (∀ c, Mem (merge rl) c ↔ Mem rl c) := by
  cases rl with
  | nil => exact (hne rfl).elim
  | cons r rl =>
    have hpw := List.pairwise_cons.mp h.pw
    have hr := h.ok r (by simp)
    obtain ⟨g1, g2, -⟩ := mergeLoop_spec rl r.1 r.2 ⟨hpw.2, fun x hx => h.ok x (List.mem_cons_of_mem _ hx)⟩ hr.1 hr.2 hpw.1
    refine ⟨g1, ?_, fun c => by rw [mem_cons]; exact g2 c⟩
    have := (g2 r.1.toNat).mpr (.inl ⟨Nat.le_refl _, hr.1⟩)
    intro he
    rw [show mergeLoop rl r.1 r.2 = [] from he] at this
    exact mem_nil _ this

theorem negateLoop_spec (rl : List Rng) : ∀ (start next : Char32), Gaps 0x7f rl → (∀ r ∈ rl, start.toNat < r.1.toNat) →
    (rl = [] → next.toNat < 0x7f ∧ start = next + 1) →
    ((negateLoop rl start next).1 ++ [((negateLoop rl start next).2 + 1, Maxcharval)]).all okRngT = true ∧
    ∀ c, Mem ((negateLoop rl start next).1 ++ [((negateLoop rl start next).2 + 1, Maxcharval)]) c ↔
      start.toNat ≤ c ∧ c < 0x110000 ∧ ¬ Mem rl c := by
  induction rl with
  | nil =>
    intro start next _ _ h
    obtain ⟨h1, h2⟩ := h rfl
    have hadd : (next + 1).toNat = next.toNat + 1 := by
      rw [BitVec.toNat_add]
      simp
      omega
    simp only [negateLoop, List.nil_append]
    refine ⟨?_, fun c => ?_⟩
    · simp only [List.all_cons, List.all_nil, Bool.and_true, okRngT, okRng, Bool.or_eq_true, Bool.and_eq_true, decide_eq_true_eq, hadd]
      rw [show Maxcharval.toNat = 0x10ffff from rfl]
      omega
    · rw [mem_cons, hadd, h2, hadd, show Maxcharval.toNat = 0x10ffff from rfl]
      have := mem_nil c
      simp only [this, or_false, not_false_eq_true, and_true]
      omega
  | cons r rl ih =>
    intro start next hg hs _
    have hpw := List.pairwise_cons.mp hg.pw
    have hr := hg.ok r (by simp)
    have hsr := hs r (by simp)
    have hadd : (r.2 + 1).toNat = r.2.toNat + 1 := by
      rw [BitVec.toNat_add]
      simp
      omega
    have hsub : (r.1 - 1).toNat = r.1.toNat - 1 := by
      rw [BitVec.toNat_sub]
      simp
      omega
    obtain ⟨g1, g2⟩ := ih (r.2 + 1) r.2 ⟨hpw.2, fun x hx => hg.ok x (List.mem_cons_of_mem _ hx)⟩
      (fun x hx => by have := hpw.1 x hx; omega) (fun _ => ⟨hr.2, rfl⟩)
    simp only [negateLoop, List.cons_append]
    refine ⟨?_, fun c => ?_⟩
    · rw [List.all_cons, g1, Bool.and_true]
      simp only [okRngT, okRng, Bool.or_eq_true, Bool.and_eq_true, decide_eq_true_eq, hsub]
      omega
    · rw [mem_cons, g2, mem_cons, hadd, hsub]
      simp only
      constructor
      · rintro (h | ⟨h1, h2, h3⟩)
        · refine ⟨h.1, by omega, ?_⟩
          rintro (h4 | ⟨x, hx, h4⟩)
          · omega
          · have := hpw.1 x hx
            omega
        · refine ⟨by omega, h2, ?_⟩
          rintro (h4 | h4)
          · omega
          · exact h3 h4
      · rintro ⟨h1, h2, h3⟩
        by_cases hc : c < r.1.toNat
        · exact .inl ⟨h1, by omega⟩
        · refine .inr ⟨?_, h2, fun h => h3 (.inr h)⟩
          by_contra hlt
          exact h3 (.inl ⟨by omega, by omega⟩)

theorem negate_spec (rl : List Rng) (hne : rl ≠ []) (h : Gaps 0x7f rl) (h0 : ∀ r ∈ rl, 0 < r.1.toNat) :
    (negate rl).all okRngT = true ∧ negate rl ≠ [] ∧ ∀ c, Mem (negate rl) c ↔ c < 0x110000 ∧ ¬ Mem rl c := by
  obtain ⟨g1, g2⟩ := negateLoop_spec rl 0 0 h (by simpa using h0) (fun he => (hne he).elim)
  refine ⟨g1, by simp [negate], fun c => ?_⟩
  have := g2 c
  rw [show (0 : Char32).toNat = 0 from rfl] at this
  simp only [Nat.zero_le, true_and] at this
  exact this

theorem gaps_ok {rl : List Rng} (h : Gaps 0x80 rl) : rl.all okRngT = true := by
  rw [List.all_eq_true]
  intro r hr
  have := h.ok r hr
  simp only [okRngT, okRng, Bool.or_eq_true, Bool.and_eq_true, decide_eq_true_eq]
  omega

theorem chrclass_items (items : List Item) (neg : Bool) (hne : items ≠ []) (hok : ∀ it ∈ items, it.ok)
    (h0 : neg = true → ∀ it ∈ items, 0 < it.lo ∧ it.hi < 0x7f) (hap : items.Pairwise Item.apart)
    (h : Pos pat ps (91#32 :: ((if neg then [94#32] else []) ++ (items.flatMap Item.chars ++ 93#32 :: ds))) st) :
    ∃ rl, rl ≠ [] ∧ rl.all okRngT = true ∧
      (∀ c, Mem rl c ↔ if neg then c < 0x110000 ∧ ¬ ∃ it ∈ items, it.lo ≤ c ∧ c ≤ it.hi else ∃ it ∈ items, it.lo ≤ c ∧ c ≤ it.hi) ∧
      ∀ fuel, items.length < fuel → chrclass pat fuel st = .ok (.some (.ranges rl),
        advs st (91#32 :: ((if neg then [94#32] else []) ++ (items.flatMap Item.chars ++ [93#32])))) := by
  obtain ⟨sl, e, hperm, hsorted⟩ := Sort.sort_spec rngcmp rng_pre (items.map Item.rng)
  have hnes : sl ≠ [] := by
    rintro rfl
    have := hperm.length_eq
    simp at this
    exact hne (List.eq_nil_of_length_eq_zero this.symm)
  have hmem : ∀ c, Mem sl c ↔ ∃ it ∈ items, it.lo ≤ c ∧ c ≤ it.hi := by
    intro c
    unfold Mem
    constructor
    · rintro ⟨r, hr, h1⟩
      obtain ⟨it, hit, rfl⟩ := List.mem_map.mp (hperm.mem_iff.mp hr)
      rw [Item.rng_lo, Item.rng_hi] at h1
      exact ⟨it, hit, h1⟩
    · rintro ⟨it, hit, h1⟩
      refine ⟨it.rng, hperm.mem_iff.mpr (List.mem_map.mpr ⟨it, hit, rfl⟩), ?_⟩
      rw [Item.rng_lo, Item.rng_hi]
      exact h1
  have hS : Sorted 0x80 sl := by
    constructor
    · have h1 : (items.map Item.rng).Pairwise fun a b => (a.1.toNat ≤ b.1.toNat → a.2.toNat ≤ b.2.toNat) ∧
          (b.1.toNat ≤ a.1.toNat → b.2.toNat ≤ a.2.toNat) := by
        rw [List.pairwise_map]
        refine hap.imp fun {a b} hab => ?_
        rw [Item.rng_lo, Item.rng_hi, Item.rng_lo, Item.rng_hi]
        exact hab
      have h2 := (hperm.pairwise_iff (R := fun a b : Rng => (a.1.toNat ≤ b.1.toNat → a.2.toNat ≤ b.2.toNat) ∧
          (b.1.toNat ≤ a.1.toNat → b.2.toNat ≤ a.2.toNat)) (fun hab => ⟨hab.2, hab.1⟩)).mpr h1
      unfold Sort.Nondecreasing at hsorted
      have h3 := h2.and hsorted
      refine h3.imp fun {a b} hab => ?_
      have := (rngcmp_nat a b).mp hab.2
      exact ⟨this, hab.1.1 this⟩
    · intro r hr
      obtain ⟨it, hit, rfl⟩ := List.mem_map.mp (hperm.mem_iff.mp hr)
      rw [Item.rng_lo, Item.rng_hi]
      exact ⟨it.le, (hok it hit).1⟩
  obtain ⟨m1, m2, m3⟩ := merge_spec sl hnes hS
  have hrl : ∃ rl, rl = (if neg then negate (merge sl) else merge sl) ∧ rl ≠ [] ∧ rl.all okRngT = true ∧
      (∀ c, Mem rl c ↔ if neg then c < 0x110000 ∧ ¬ ∃ it ∈ items, it.lo ≤ c ∧ c ≤ it.hi else ∃ it ∈ items, it.lo ≤ c ∧ c ≤ it.hi) := by
    cases neg with
    | false =>
      refine ⟨merge sl, rfl, m2, gaps_ok m1, fun c => ?_⟩
      rw [m3, hmem]
      simp
    | true =>
      have : ∀ r ∈ merge sl, 0 < r.1.toNat := by
        intro r hr
        obtain ⟨it, hit, h1, h2⟩ := (hmem r.1.toNat).mp ((m3 _).mp ⟨r, hr, Nat.le_refl _, (m1.ok r hr).1⟩)
        have := h0 rfl it hit
        omega
      have m1' : Gaps 0x7f (merge sl) := by
        refine ⟨m1.pw, fun r hr => ⟨(m1.ok r hr).1, ?_⟩⟩
        obtain ⟨it, hit, h1, h2⟩ := (hmem r.2.toNat).mp ((m3 _).mp ⟨r, hr, (m1.ok r hr).1, Nat.le_refl _⟩)
        have := h0 rfl it hit
        omega
      obtain ⟨n1, n2, n3⟩ := negate_spec (merge sl) m2 m1' this
      refine ⟨negate (merge sl), rfl, n2, n1, fun c => ?_⟩
      rw [n3, m3, hmem]
      simp
  obtain ⟨rl, hrl1, hrl2, hrl3, hrl4⟩ := hrl
  refine ⟨rl, hrl2, hrl3, hrl4, fun fuel hf => ?_⟩
  cases items with
  | nil => exact (hne rfl).elim
  | cons it items =>
    unfold chrclass
    rw [h.yes]
    simp only [Res.bind_ok]
    have h1 := h.adv
    -- after the optional `^`
    have h2 : ∃ ps', matchc pat (adv st 91#32) 94#32 = .ok (neg, advs (adv st 91#32) (if neg then [94#32] else [])) ∧
        Pos pat ps' ((it :: items).flatMap Item.chars ++ 93#32 :: ds) (advs (adv st 91#32) (if neg then [94#32] else [])) := by
      cases neg with
      | false =>
        simp only [Bool.false_eq_true, if_false, List.nil_append] at h1 ⊢
        rw [advs_nil]
        exact ⟨_, h1.no (ok_head hok _ 94#32 (by decide) (by simp)) (by decide), h1⟩
      | true =>
        simp only [if_true, List.cons_append, List.nil_append] at h1 ⊢
        rw [advs_one]
        exact ⟨_, h1.yes, h1.adv⟩
    obtain ⟨ps', e2, h2⟩ := h2
    rw [e2]
    simp only [Res.bind_ok]
    rw [List.flatMap_cons, List.append_assoc] at h2
    rw [rangematch_item it h2 (ok_head (fun i hi => hok i (by simp [hi])) _ 45#32 (by decide) (by simp))]
    simp only [Res.bind_ok]
    have h3 := h2.advs
    rw [classloop_items items _ _ _ fuel (fun i hi => hok i (by simp [hi])) h3 (by simp at hf; omega)]
    simp only [Res.bind_ok]
    have h4 := h3.advs
    unfold classend
    rw [h4.yes]
    simp only [Res.bind_ok, not_true_eq_false, if_false, List.singleton_append]
    rw [show it.rng :: items.map Item.rng = (it :: items).map Item.rng from rfl, e, Res.bind_ok, Res.pure_eq, ← hrl1]
    refine congrArg Res.ok (congrArg (Prod.mk _) ?_)
    rw [← advs_one (c := 93#32), advs_append, advs_append, advs_append, ← advs_one, advs_append]
    simp

/-! ## Trees up to the way classes are written -/

/-- The same tree, with classes related by `R`. -/
inductive Rel (R : List Rng → List Rng → Prop) : Ast → Ast → Prop where
  | chr {x : Char32} : Rel R (.chr x) (.chr x)
  | ranges {a b} : R a b → Rel R (.ranges a) (.ranges b)
  | cat {a b a' b'} : Rel R a a' → Rel R b b' → Rel R (.cat a b) (.cat a' b')
  | alt {a b a' b'} : Rel R a a' → Rel R b b' → Rel R (.alt a b) (.alt a' b')
  | star {a a' r} : Rel R a a' → Rel R (.star a r) (.star a' r)
  | plus {a a' r} : Rel R a a' → Rel R (.plus a r) (.plus a' r)
  | quest {a a'} : Rel R a a' → Rel R (.quest a) (.quest a')
  | cap {m a a'} : Rel R a a' → Rel R (.cap m a) (.cap m a')
  | bol : Rel R .bol .bol
  | eol : Rel R .eol .eol
  | bow : Rel R .bow .bow
  | eow : Rel R .eow .eow

theorem Rel.flip {R : List Rng → List Rng → Prop} {t t' : Ast} (h : Rel R t t') : Rel (fun a b => R b a) t' t := by
  induction h with
  | chr => exact .chr
  | ranges h => exact .ranges h
  | cat _ _ h1 h2 => exact .cat h1 h2
  | alt _ _ h1 h2 => exact .alt h1 h2
  | star _ h => exact .star h
  | plus _ h => exact .plus h
  | quest _ h => exact .quest h
  | cap _ h => exact .cap h
  | bol => exact .bol
  | eol => exact .eol
  | bow => exact .bow
  | eow => exact .eow

theorem parse_rel {R : List Rng → List Rng → Prop} {cls : List Rng → List Byte → Prop} {s : List Byte} {t : Ast} {i j : Nat}
    {g g' : Groups} (hc : ∀ a b bs, R a b → cls a bs → cls b bs) (h : Parse cls s t i g j g') :
    ∀ {t' : Ast}, Rel R t t' → Parse cls s t' i g j g' := by
  induction h with
  | chr h => intro t' hr; cases hr; exact .chr h
  | ranges h1 h2 => intro t' hr; cases hr with | ranges hr => exact .ranges (hc _ _ _ hr h1) h2
  | cat _ _ ih1 ih2 => intro t' hr; cases hr with | cat ha hb => exact .cat (ih1 ha) (ih2 hb)
  | altl _ ih => intro t' hr; cases hr with | alt ha hb => exact .altl (ih ha)
  | altr _ ih => intro t' hr; cases hr with | alt ha hb => exact .altr (ih hb)
  | star0 => intro t' hr; cases hr; exact .star0
  | star1 _ _ ih1 ih2 => intro t' hr; cases hr with | star ha => exact .star1 (ih1 ha) (ih2 (.star ha))
  | plus _ _ ih1 ih2 => intro t' hr; cases hr with | plus ha => exact .plus (ih1 ha) (ih2 (.star ha))
  | quest0 => intro t' hr; cases hr; exact .quest0
  | quest1 _ ih => intro t' hr; cases hr with | quest ha => exact .quest1 (ih ha)
  | cap _ ih => intro t' hr; cases hr with | cap ha => exact .cap (ih ha)
  | bol h => intro t' hr; cases hr; exact .bol h
  | eol h => intro t' hr; cases hr; exact .eol h

/-- The classes have the same members, and the second one is translated well. -/
def SameR (a b : List Rng) : Prop := (∀ c, Mem a c ↔ Mem b c) ∧ b ≠ [] ∧ b.all okRngT = true

/-- The same tree, up to the way classes are written. -/
abbrev Same := Rel SameR

theorem inranges_mem (rl : List Rng) (bs : List Byte) : InRanges rl bs ↔ ∃ c, Mem rl c ∧ bs = utf8 c := by
  unfold InRanges Mem
  constructor
  · rintro ⟨r, hr, c, h1, h2, h3⟩; exact ⟨c, ⟨r, hr, h1, h2⟩, h3⟩
  · rintro ⟨c, ⟨r, hr, h1, h2⟩, h3⟩; exact ⟨r, hr, c, h1, h2, h3⟩

theorem Same.matches {t t' : Ast} (h : Same t t') (s : List Byte) (i j : Nat) (g : Groups) : Matches s t i j g ↔ Matches s t' i j g := by
  constructor
  · intro hp
    refine parse_rel (fun a b bs hr hc => ?_) hp (.cap h)
    rw [inranges_mem] at hc ⊢
    obtain ⟨c, h1, h2⟩ := hc
    exact ⟨c, (hr.1 c).mp h1, h2⟩
  · intro hp
    refine parse_rel (fun a b bs hr hc => ?_) hp (.cap h.flip)
    rw [inranges_mem] at hc ⊢
    obtain ⟨c, h1, h2⟩ := hc
    exact ⟨c, (hr.1 c).mpr h1, h2⟩

theorem Rel.nullable {R : List Rng → List Rng → Prop} {t t' : Ast} (h : Rel R t t') : nullable t' = nullable t := by
  induction h with
  | cat _ _ h1 h2 => simp only [Regex.nullable, h1, h2]
  | alt _ _ h1 h2 => simp only [Regex.nullable, h1, h2]
  | plus _ h => simp only [Regex.nullable, h]
  | cap _ h => simp only [Regex.nullable, h]
  | _ => rfl

theorem Same.ok {t t' : Ast} (h : Same t t') : Ok (fun _ => true) t = true → Ok okRngT t' = true := by
  induction h with
  | chr => exact id
  | ranges h =>
    intro _
    simp only [Ok, Bool.and_eq_true, Bool.not_eq_true', List.isEmpty_eq_false_iff]
    exact h.2
  | cat _ _ h1 h2 => simp only [Ok, Bool.and_eq_true]; exact fun h => ⟨h1 h.1, h2 h.2⟩
  | alt _ _ h1 h2 => simp only [Ok, Bool.and_eq_true]; exact fun h => ⟨h1 h.1, h2 h.2⟩
  | star hr h => simp only [Ok, Bool.and_eq_true, hr.nullable]; exact fun h1 => ⟨h h1.1, h1.2⟩
  | plus hr h => simp only [Ok, Bool.and_eq_true, hr.nullable]; exact fun h1 => ⟨h h1.1, h1.2⟩
  | quest _ h => exact h
  | cap _ h => simp only [Ok, Bool.and_eq_true]; exact fun h1 => ⟨h1.1, h h1.2⟩
  | bol => exact id
  | eol => exact id
  | bow => exact id
  | eow => exact id

theorem sameR_refl {rl : List Rng} (h : rl ≠ []) (h' : rl.all okRngT = true) : SameR rl rl := ⟨fun _ => Iff.rfl, h, h'⟩

/-! ## The grammar -/

/-- What may follow an expression of each level. -/
def Follow : Lvl → List Char32 → Prop
  | .base, _ => True
  | .rep, ds => ds.head? ≠ some 42#32 ∧ ds.head? ≠ some 43#32 ∧ ds.head? ≠ some 63#32
  | .cat, ds => ds = [] ∨ ds.head? = some 124#32 ∨ ds.head? = some 41#32
  | .alt, ds => ds = [] ∨ ds.head? = some 41#32

/-- The parser of each level. -/
def expr (tabs : List Byte → Option (List Rng)) (pat : List Byte) : Lvl → Nat → St → Res (PR × St)
  | .base => baseexpr tabs pat
  | .rep => repexpr tabs pat
  | .cat => catexpr tabs pat
  | .alt => altexpr tabs pat

/-- Expressions do not start with an operator. -/
theorem gr_head {l : Lvl} {t : Ast} {n n' : Nat} (h : Gr l cs t n n') : ∃ c r, cs = c :: r ∧ c.toNat ∉ [42, 43, 63, 124, 41] := by
  induction h with
  | chr h =>
    refine ⟨_, _, rfl, fun hm => h.2 ?_⟩
    simp only [List.mem_cons, List.not_mem_nil, or_false] at hm ⊢
    omega
  | esc | bol | eol | any | cap | grp | cls | neg => exact ⟨_, _, rfl, by decide⟩
  | one _ ih | last _ ih | only _ ih => exact ih
  | star _ ih | starr _ ih | plus _ ih | plusr _ ih | quest _ ih | cat _ _ ih | alt _ _ ih =>
    obtain ⟨c, r, rfl, h⟩ := ih
    exact ⟨c, _, rfl, h⟩

theorem gr_follow {l : Lvl} {t : Ast} {n n' : Nat} (h : Gr l cs t n n') (ds : List Char32) : Follow .rep (cs ++ ds) := by
  obtain ⟨c, r, rfl, h'⟩ := gr_head h
  refine ⟨?_, ?_, ?_⟩ <;>
  · intro he
    simp only [List.cons_append, List.head?_cons, Option.some.injEq] at he
    rw [he] at h'
    exact h' (by decide)

/-- Nothing more in a sequence. -/
theorem cat_none (tabs : List Byte → Option (List Rng)) (h : Pos pat ps ds st) (hd : Follow .cat ds) (fuel : Nat) :
    catexpr tabs pat (fuel + 3) st = .ok (.none, st) := by
  have hb : baseexpr tabs pat (fuel + 1) st = .ok (.none, st) := by
    rw [baseexpr]
    rcases hd with rfl | hd | hd
    · rw [if_pos h.len_nil]; rfl
    · cases ds with
      | nil => simp at hd
      | cons d ds =>
        simp only [List.head?_cons, Option.some.injEq] at hd
        subst hd
        rw [if_neg h.len.1, h.peek, Res.bind_ok, if_pos rfl]; rfl
    · cases ds with
      | nil => simp at hd
      | cons d ds =>
        simp only [List.head?_cons, Option.some.injEq] at hd
        subst hd
        rw [if_neg h.len.1, h.peek, Res.bind_ok, if_neg (by decide), if_pos rfl]; rfl
  rw [catexpr, repexpr, hb, Res.bind_ok]
  rfl

/-- The state after an expression. -/
def fini (st : St) (cs : List Char32) (n : Nat) : St := { idx := st.idx + (enc cs).length, nmatch := n }

theorem Pos.fini (h : Pos pat ps (cs ++ ds) st) (n : Nat) : Pos pat (ps ++ cs) ds (fini st cs n) := h.advs

theorem fini_advs {a b : List Char32} {n : Nat} : advs (fini st a n) b = fini st (a ++ b) n := by
  simp [advs, fini, enc_append, Nat.add_assoc]
theorem fini_fini {a b : List Char32} {n m : Nat} : fini (fini st a n) b m = fini st (a ++ b) m := by
  simp [fini, enc_append, Nat.add_assoc]
theorem advs_fini {a b : List Char32} {n : Nat} : fini (advs st a) b n = fini st (a ++ b) n := by
  simp [advs, fini, enc_append, Nat.add_assoc]
theorem adv_fini {b : List Char32} {n : Nat} : fini (adv st c) b n = fini st (c :: b) n := by
  rw [← advs_one, advs_fini]; rfl
theorem fini_adv {b : List Char32} {n : Nat} : adv (fini st b n) c = fini st (b ++ [c]) n := by
  rw [← advs_one, fini_advs]
theorem fini_self {b : List Char32} : fini st b st.nmatch = advs st b := rfl

/-- A tree of an escape. -/
def leafOk : Ast → Bool
  | .ranges rl => !rl.isEmpty && rl.all okRngT
  | .chr _ => true
  | .bow => true
  | .eow => true
  | _ => false

theorem leaf_same (t : Ast) (h : leafOk t = true) : Same t t := by
  cases t with
  | ranges rl =>
    replace h : (!rl.isEmpty && rl.all okRngT) = true := h
    simp only [Bool.and_eq_true, Bool.not_eq_true', List.isEmpty_eq_false_iff] at h
    exact .ranges (sameR_refl h.1 h.2)
  | chr c => exact .chr
  | bow => exact .bow
  | eow => exact .eow
  | _ => exact absurd h Bool.false_ne_true

/-- An escape as `escaped` reads it. -/
def escOk (p : Nat × Ast) : Bool :=
  decide (BitVec.ofNat 32 p.1 ≠ 112#32) && decide (BitVec.ofNat 32 p.1 ≠ 80#32) && decide (BitVec.ofNat 32 p.1 ≠ 117#32) &&
  decide (escmap (BitVec.ofNat 32 p.1) = .some p.2) && leafOk p.2

theorem escapes_all : ∀ p ∈ escapes, escOk p = true := List.all_eq_true.mp (by decide +kernel)

theorem escapes_ok (c : Char32) (t : Ast) (h : (c.toNat, t) ∈ escapes) :
    c ≠ 112#32 ∧ c ≠ 80#32 ∧ c ≠ 117#32 ∧ escmap c = .some t ∧ Same t t := by
  have h1 := escapes_all (c.toNat, t) h
  clear h
  simp only [escOk, Bool.and_eq_true, decide_eq_true_eq, Utf.ofNat_toNat] at h1
  obtain ⟨⟨⟨⟨h1, h2⟩, h3⟩, h4⟩, h5⟩ := h1
  exact ⟨h1, h2, h3, h4, leaf_same t h5⟩

theorem base_first (tabs : List Byte → Option (List Rng)) (h : Pos pat ps (c :: ds) st) (fuel : Nat)
    (hc : c.toNat ∉ [124, 41, 42, 43, 63]) : baseexpr tabs pat (fuel + 1) st =
      (if c = 91#32 then chrclass pat fuel st
      else if c = 94#32 then .ok (.some .bol, adv st c)
      else if c = 36#32 then .ok (.some .eol, adv st c)
      else if c = 46#32 then .ok (.some (.ranges [(0, Maxcharval)]), adv st c)
      else if c = 40#32 then do
        let (g, st) ← groupstart pat st
        match g with
        | none => pure (.err (.badrep 63#32), st)
        | some (nocap, m) => do
          let r ← altexpr tabs pat fuel st
          groupend pat nocap m r
      else if c = 92#32 then
        if pat.length = (adv st c).idx then .ok (.err .incomplete, adv st c)
        else escaped tabs pat fuel (adv st c)
      else .ok (.some (.chr c), adv st c)) := by
  have ne : ∀ x : Char32, x.toNat ∈ [124, 41, 42, 43, 63] → c ≠ x := by rintro x hx rfl; exact hc hx
  rw [baseexpr, if_neg h.len.1, h.peek, Res.bind_ok, if_neg (ne 124#32 (by decide)), if_neg (ne 41#32 (by decide)),
    if_neg (ne 42#32 (by decide)), if_neg (ne 43#32 (by decide)), if_neg (ne 63#32 (by decide)), h.getc]
  simp only [Res.bind_ok, Res.pure_eq]
  rfl

theorem plain_base (tabs : List Byte → Option (List Rng)) (h : Pos pat ps (c :: ds) st) (hc : plain c) (fuel : Nat) :
    baseexpr tabs pat (fuel + 1) st = .ok (.some (.chr c), adv st c) := by
  have ne : ∀ x : Char32, x.toNat ∈ [124, 41, 42, 43, 63, 91, 94, 36, 46, 40, 92] → c ≠ x := by rintro x hx rfl; exact hc.2 hx
  rw [base_first tabs h fuel (fun hm => hc.2 (by simp only [List.mem_cons, List.not_mem_nil, or_false] at hm ⊢; omega)),
    if_neg (ne 91#32 (by decide)), if_neg (ne 94#32 (by decide)), if_neg (ne 36#32 (by decide)), if_neg (ne 46#32 (by decide)),
    if_neg (ne 40#32 (by decide)), if_neg (ne 92#32 (by decide))]

theorem repend_one (t : Ast) (h : Pos pat ps ds st) (hf : Follow .rep ds) : repend pat (.some t, st) = .ok (.some t, st) := by
  unfold repend
  dsimp only
  rw [h.no hf.1 (by decide)]
  simp only [Res.bind_ok, Bool.false_eq_true, if_false]
  rw [h.no hf.2.1 (by decide)]
  simp only [Res.bind_ok, Bool.false_eq_true, if_false]
  rw [h.no hf.2.2 (by decide)]
  simp only [Res.bind_ok, Bool.false_eq_true, if_false, Res.pure_eq]

theorem repend_star (t : Ast) (h : Pos pat ps (42#32 :: ds) st) (hf : Follow .rep ds) :
    repend pat (.some t, st) = .ok (.some (.star t false), adv st 42#32) := by
  unfold repend
  dsimp only
  rw [h.yes]
  simp only [Res.bind_ok, if_true]
  rw [h.adv.no hf.2.2 (by decide)]
  rfl

theorem repend_starr (t : Ast) (h : Pos pat ps (42#32 :: 63#32 :: ds) st) :
    repend pat (.some t, st) = .ok (.some (.star t true), adv (adv st 42#32) 63#32) := by
  unfold repend
  dsimp only
  rw [h.yes]
  simp only [Res.bind_ok, if_true]
  rw [h.adv.yes]
  rfl

theorem repend_plus (t : Ast) (h : Pos pat ps (43#32 :: ds) st) (hf : Follow .rep ds) :
    repend pat (.some t, st) = .ok (.some (.plus t false), adv st 43#32) := by
  unfold repend
  dsimp only
  rw [h.no (by simp) (by decide)]
  simp only [Res.bind_ok, Bool.false_eq_true, if_false]
  rw [h.yes]
  simp only [Res.bind_ok, if_true]
  rw [h.adv.no hf.2.2 (by decide)]
  rfl

theorem repend_plusr (t : Ast) (h : Pos pat ps (43#32 :: 63#32 :: ds) st) :
    repend pat (.some t, st) = .ok (.some (.plus t true), adv (adv st 43#32) 63#32) := by
  unfold repend
  dsimp only
  rw [h.no (by simp) (by decide)]
  simp only [Res.bind_ok, Bool.false_eq_true, if_false]
  rw [h.yes]
  simp only [Res.bind_ok, if_true]
  rw [h.adv.yes]
  rfl

theorem repend_quest (t : Ast) (h : Pos pat ps (63#32 :: ds) st) :
    repend pat (.some t, st) = .ok (.some (.quest t), adv st 63#32) := by
  unfold repend
  dsimp only
  rw [h.no (by simp) (by decide)]
  simp only [Res.bind_ok, Bool.false_eq_true, if_false]
  rw [h.no (by simp) (by decide)]
  simp only [Res.bind_ok, Bool.false_eq_true, if_false]
  rw [h.yes]
  rfl

/-- The parser builds the tree of the grammar. -/
theorem parse_gr (tabs : List Byte → Option (List Rng)) (pat : List Byte) {l : Lvl} {cs : List Char32} {t : Ast} {n n' : Nat}
    (h : Gr l cs t n n') : ∀ (ps ds : List Char32) (st : St), Pos pat ps (cs ++ ds) st → st.nmatch = n → Follow l ds →
    ∃ t' N, Same t t' ∧ ∀ fuel, N ≤ fuel → expr tabs pat l fuel st = .ok (.some t', fini st cs n') := by
  induction h with
  | chr hp =>
    intro ps ds st h hn _
    subst hn
    refine ⟨_, 1, .chr, fun fuel hf => ?_⟩
    obtain ⟨fuel, rfl⟩ : ∃ k, fuel = k + 1 := ⟨fuel - 1, by omega⟩
    rw [fini_self, advs_one]
    exact plain_base tabs h hp fuel
  | @esc c t n hm =>
    intro ps ds st h hn _
    subst hn
    obtain ⟨h1, h2, h3, h4, h5⟩ := escapes_ok c t hm
    refine ⟨_, 1, h5, fun fuel hf => ?_⟩
    obtain ⟨fuel, rfl⟩ : ∃ k, fuel = k + 1 := ⟨fuel - 1, by omega⟩
    simp only [List.cons_append, List.nil_append] at h
    show baseexpr tabs pat (fuel + 1) st = _
    rw [base_first tabs h fuel (by decide), if_neg (by decide), if_neg (by decide), if_neg (by decide), if_neg (by decide), if_neg (by decide),
      if_pos rfl, if_neg h.adv.len.1, escaped, h.adv.getc]
    simp only [Res.bind_ok]
    rw [if_neg h1, if_neg h2, if_neg h3, h4, fini_self, ← advs_cons, advs_one]
    rfl
  | bol =>
    intro ps ds st h hn _
    subst hn
    refine ⟨_, 1, .bol, fun fuel hf => ?_⟩
    obtain ⟨fuel, rfl⟩ : ∃ k, fuel = k + 1 := ⟨fuel - 1, by omega⟩
    show baseexpr tabs pat (fuel + 1) st = _
    rw [base_first tabs h fuel (by decide), if_neg (by decide), if_pos rfl, fini_self, advs_one]
  | eol =>
    intro ps ds st h hn _
    subst hn
    refine ⟨_, 1, .eol, fun fuel hf => ?_⟩
    obtain ⟨fuel, rfl⟩ : ∃ k, fuel = k + 1 := ⟨fuel - 1, by omega⟩
    show baseexpr tabs pat (fuel + 1) st = _
    rw [base_first tabs h fuel (by decide), if_neg (by decide), if_neg (by decide), if_pos rfl, fini_self, advs_one]
  | any =>
    intro ps ds st h hn _
    subst hn
    refine ⟨_, 1, .ranges (sameR_refl (by simp) (by decide)), fun fuel hf => ?_⟩
    obtain ⟨fuel, rfl⟩ : ∃ k, fuel = k + 1 := ⟨fuel - 1, by omega⟩
    show baseexpr tabs pat (fuel + 1) st = _
    rw [base_first tabs h fuel (by decide), if_neg (by decide), if_neg (by decide), if_neg (by decide), if_pos rfl, fini_self, advs_one]
    rfl
  | @cap cs t n n' hg ih =>
    intro ps ds st h hn _
    subst hn
    simp only [List.cons_append, List.append_assoc, List.nil_append] at h
    have h1 := h.adv
    have h2 : Pos pat (ps ++ [40#32]) (cs ++ 41#32 :: ds) { adv st 40#32 with nmatch := st.nmatch + 1 } := h1
    obtain ⟨t', N, hs, hN⟩ := ih _ _ _ h2 rfl (.inr rfl)
    refine ⟨_, N + 1, .cap hs, fun fuel hf => ?_⟩
    obtain ⟨fuel, rfl⟩ : ∃ k, fuel = k + 1 := ⟨fuel - 1, by omega⟩
    have e := hN fuel (by omega)
    simp only [expr] at e ⊢
    rw [base_first tabs h fuel (by decide), if_neg (by decide), if_neg (by decide), if_neg (by decide), if_neg (by decide), if_pos rfl,
      groupstart, h.getc]
    simp only [Res.bind_ok]
    rw [h1.no (gr_follow hg _).2.2 (by decide)]
    simp only [Res.bind_ok, Bool.false_eq_true, if_false, Res.pure_eq]
    rw [show (adv st 40#32).nmatch = st.nmatch from rfl, e]
    simp only [Res.bind_ok, groupend]
    rw [(h2.fini n').yes]
    simp only [Res.bind_ok, if_true, Bool.false_eq_true, if_false, Res.pure_eq]
    rw [fini_adv]
    refine congrArg Res.ok (congrArg (Prod.mk _) ?_)
    simp [fini, adv, enc_cons, Nat.add_assoc]
  | @grp cs t n n' hg ih =>
    intro ps ds st h hn _
    subst hn
    simp only [List.cons_append, List.append_assoc, List.nil_append] at h
    have h1 := h.adv
    have h2 := h1.adv
    have h3 := h2.adv
    obtain ⟨t', N, hs, hN⟩ := ih _ _ _ h3 rfl (.inr rfl)
    refine ⟨_, N + 1, hs, fun fuel hf => ?_⟩
    obtain ⟨fuel, rfl⟩ : ∃ k, fuel = k + 1 := ⟨fuel - 1, by omega⟩
    have e := hN fuel (by omega)
    simp only [expr] at e ⊢
    rw [base_first tabs h fuel (by decide), if_neg (by decide), if_neg (by decide), if_neg (by decide), if_neg (by decide), if_pos rfl,
      groupstart, h.getc]
    simp only [Res.bind_ok]
    rw [h1.yes]
    simp only [Res.bind_ok, if_true]
    rw [h2.yes]
    simp only [Res.bind_ok, if_true, Res.pure_eq]
    rw [e]
    simp only [Res.bind_ok, groupend]
    rw [(h3.fini n').yes]
    simp only [Res.bind_ok, if_true, Res.pure_eq]
    rw [fini_adv, adv_fini, adv_fini, adv_fini]
  | @cls items rl n hne hok hap hm =>
    intro ps ds st h hn _
    subst hn
    have h' : Pos pat ps (91#32 :: ((if false = true then [94#32] else []) ++ (items.flatMap Item.chars ++ 93#32 :: ds))) st := by
      simpa using h
    obtain ⟨rl', r1, r2, r3, r4⟩ := chrclass_items items false hne hok (by simp) hap h'
    refine ⟨.ranges rl', items.length + 2, .ranges ⟨fun c => ?_, r1, r2⟩, fun fuel hf => ?_⟩
    · rw [hm, r3]; simp
    · obtain ⟨fuel, rfl⟩ : ∃ k, fuel = k + 1 := ⟨fuel - 1, by omega⟩
      show baseexpr tabs pat (fuel + 1) st = _
      rw [base_first tabs h' fuel (by decide), if_pos rfl, r4 fuel (by omega), fini_self]
      simp
  | @neg items rl n hne hok hap hm =>
    intro ps ds st h hn _
    subst hn
    have h' : Pos pat ps (91#32 :: ((if true = true then [94#32] else []) ++ (items.flatMap Item.chars ++ 93#32 :: ds))) st := by
      simpa using h
    obtain ⟨rl', r1, r2, r3, r4⟩ := chrclass_items items true hne (fun it hi => (hok it hi).1) (fun _ it hi => (hok it hi).2) hap h'
    refine ⟨.ranges rl', items.length + 2, .ranges ⟨fun c => ?_, r1, r2⟩, fun fuel hf => ?_⟩
    · rw [hm, r3]; simp
    · obtain ⟨fuel, rfl⟩ : ∃ k, fuel = k + 1 := ⟨fuel - 1, by omega⟩
      show baseexpr tabs pat (fuel + 1) st = _
      rw [base_first tabs h' fuel (by decide), if_pos rfl, r4 fuel (by omega), fini_self]
      simp
  | one hg ih =>
    intro ps ds st h hn hf
    obtain ⟨t', N, hs, hN⟩ := ih _ _ _ h hn trivial
    refine ⟨t', N + 1, hs, fun fuel hfl => ?_⟩
    obtain ⟨fuel, rfl⟩ : ∃ k, fuel = k + 1 := ⟨fuel - 1, by omega⟩
    have e := hN fuel (by omega)
    simp only [expr] at e ⊢
    rw [repexpr, e, Res.bind_ok, repend_one _ (h.fini _) hf]
  | @star cs t n n' hg ih =>
    intro ps ds st h hn hf
    rw [List.append_assoc] at h
    obtain ⟨t', N, hs, hN⟩ := ih _ _ _ h hn trivial
    refine ⟨_, N + 1, .star hs, fun fuel hfl => ?_⟩
    obtain ⟨fuel, rfl⟩ : ∃ k, fuel = k + 1 := ⟨fuel - 1, by omega⟩
    have e := hN fuel (by omega)
    simp only [expr] at e ⊢
    rw [repexpr, e, Res.bind_ok, repend_star _ (h.fini _) hf, fini_adv]
  | @starr cs t n n' hg ih =>
    intro ps ds st h hn hf
    rw [List.append_assoc] at h
    obtain ⟨t', N, hs, hN⟩ := ih _ _ _ h hn trivial
    refine ⟨_, N + 1, .star hs, fun fuel hfl => ?_⟩
    obtain ⟨fuel, rfl⟩ : ∃ k, fuel = k + 1 := ⟨fuel - 1, by omega⟩
    have e := hN fuel (by omega)
    simp only [expr] at e ⊢
    rw [repexpr, e, Res.bind_ok, repend_starr _ (h.fini _), fini_adv, fini_adv, List.append_assoc]
    rfl
  | @plus cs t n n' hg ih =>
    intro ps ds st h hn hf
    rw [List.append_assoc] at h
    obtain ⟨t', N, hs, hN⟩ := ih _ _ _ h hn trivial
    refine ⟨_, N + 1, .plus hs, fun fuel hfl => ?_⟩
    obtain ⟨fuel, rfl⟩ : ∃ k, fuel = k + 1 := ⟨fuel - 1, by omega⟩
    have e := hN fuel (by omega)
    simp only [expr] at e ⊢
    rw [repexpr, e, Res.bind_ok, repend_plus _ (h.fini _) hf, fini_adv]
  | @plusr cs t n n' hg ih =>
    intro ps ds st h hn hf
    rw [List.append_assoc] at h
    obtain ⟨t', N, hs, hN⟩ := ih _ _ _ h hn trivial
    refine ⟨_, N + 1, .plus hs, fun fuel hfl => ?_⟩
    obtain ⟨fuel, rfl⟩ : ∃ k, fuel = k + 1 := ⟨fuel - 1, by omega⟩
    have e := hN fuel (by omega)
    simp only [expr] at e ⊢
    rw [repexpr, e, Res.bind_ok, repend_plusr _ (h.fini _), fini_adv, fini_adv, List.append_assoc]
    rfl
  | @quest cs t n n' hg ih =>
    intro ps ds st h hn hf
    rw [List.append_assoc] at h
    obtain ⟨t', N, hs, hN⟩ := ih _ _ _ h hn trivial
    refine ⟨_, N + 1, .quest hs, fun fuel hfl => ?_⟩
    obtain ⟨fuel, rfl⟩ : ∃ k, fuel = k + 1 := ⟨fuel - 1, by omega⟩
    have e := hN fuel (by omega)
    simp only [expr] at e ⊢
    rw [repexpr, e, Res.bind_ok, repend_quest _ (h.fini _), fini_adv]
  | last hg ih =>
    intro ps ds st h hn hf
    have hrep : Follow .rep ds := by
      rcases hf with rfl | hf | hf
      · simp [Follow]
      · simp [Follow, hf]
      · simp [Follow, hf]
    obtain ⟨t', N, hs, hN⟩ := ih _ _ _ h hn hrep
    refine ⟨t', N + 4, hs, fun fuel hfl => ?_⟩
    obtain ⟨fuel, rfl⟩ : ∃ k, fuel = k + 4 := ⟨fuel - 4, by omega⟩
    have e := hN (fuel + 3) (by omega)
    simp only [expr] at e ⊢
    rw [catexpr, e]
    simp only [Res.bind_ok]
    rw [cat_none tabs (h.fini _) hf, Res.bind_ok]
    rfl
  | @cat cs t n n1 cs' t2 n' hg hg' ih ih' =>
    intro ps ds st h hn hf
    rw [List.append_assoc] at h
    obtain ⟨t', N, hs, hN⟩ := ih _ _ _ h hn (gr_follow hg' _)
    obtain ⟨t2', N2, hs2, hN2⟩ := ih' _ _ _ (h.fini n1) rfl hf
    refine ⟨_, N + N2 + 1, .cat hs hs2, fun fuel hfl => ?_⟩
    obtain ⟨fuel, rfl⟩ : ∃ k, fuel = k + 1 := ⟨fuel - 1, by omega⟩
    have e := hN fuel (by omega)
    have e2 := hN2 fuel (by omega)
    simp only [expr] at e e2 ⊢
    rw [catexpr, e]
    simp only [Res.bind_ok]
    rw [e2, Res.bind_ok, fini_fini]
    rfl
  | only hg ih =>
    intro ps ds st h hn hf
    have hcat : Follow .cat ds := by
      rcases hf with rfl | hf
      · exact .inl rfl
      · exact .inr (.inr hf)
    have hno : ds.head? ≠ some 124#32 := by
      rcases hf with rfl | hf
      · simp
      · rw [hf]; decide
    obtain ⟨t', N, hs, hN⟩ := ih _ _ _ h hn hcat
    refine ⟨t', N + 1, hs, fun fuel hfl => ?_⟩
    obtain ⟨fuel, rfl⟩ : ∃ k, fuel = k + 1 := ⟨fuel - 1, by omega⟩
    have e := hN fuel (by omega)
    simp only [expr] at e ⊢
    rw [altexpr, e]
    simp only [Res.bind_ok]
    rw [(h.fini _).no hno (by decide)]
    rfl
  | @alt cs t n n1 cs' t2 n' hg hg' ih ih' =>
    intro ps ds st h hn hf
    rw [List.append_assoc] at h
    obtain ⟨t', N, hs, hN⟩ := ih _ _ _ h hn (.inr (.inl rfl))
    have h1 := h.fini n1
    rw [List.cons_append] at h1
    obtain ⟨t2', N2, hs2, hN2⟩ := ih' _ _ _ h1.adv rfl hf
    refine ⟨_, N + N2 + 1, .alt hs hs2, fun fuel hfl => ?_⟩
    obtain ⟨fuel, rfl⟩ : ∃ k, fuel = k + 1 := ⟨fuel - 1, by omega⟩
    have e := hN fuel (by omega)
    have e2 := hN2 fuel (by omega)
    simp only [expr] at e e2 ⊢
    rw [altexpr, e]
    simp only [Res.bind_ok]
    rw [h1.yes]
    simp only [Res.bind_ok, if_true]
    rw [e2, Res.bind_ok, fini_adv, fini_fini, List.append_assoc]
    rfl

theorem regexparse_gr (tabs : List Byte → Option (List Rng)) {cs : List Char32} {t : Ast} {n : Nat} (hcs : CodePoints cs)
    (h : Gr .alt cs t 1 n) : ∃ t' N, Same t t' ∧ ∀ fuel, N ≤ fuel → regexparse tabs (enc cs) fuel = .ok (.ok (t', n)) := by
  have hp : Pos (enc cs) [] (cs ++ []) { idx := 0, nmatch := 1 } := ⟨by simp, by simpa using hcs, by simp [enc]⟩
  obtain ⟨t', N, hs, hN⟩ := parse_gr tabs (enc cs) h [] [] _ hp rfl (.inl rfl)
  refine ⟨t', N, hs, fun fuel hf => ?_⟩
  have e := hN fuel hf
  simp only [expr] at e
  rw [regexparse, e]
  simp only [Res.bind_ok]
  rw [if_pos (by simp [fini])]
  rfl

end Verif.Regex
