import Verif.Use.Model

/-!
# Interface files: each primitive is read back
-/

namespace Verif.Use

/-- Reading what has been written, followed by anything, gives the value and leaves the rest
(specification). -/
def RT {α : Type} (w : List Byte) (r : R α) (v : α) : Prop := ∀ rest, r (w ++ rest) = .ok (v, rest)

theorem RT.pure {α : Type} (v : α) : RT [] (Pure.pure v : R α) v := fun _ => rfl

theorem bind_apply {α β : Type} (r : R α) (f : α → R β) (s s' : List Byte) (a : α) (h : r s = .ok (a, s')) :
    (r >>= f) s = f a s' := by
  show (match r s with
    | .ok (a, s') => f a s'
    | .abort => .abort
    | .ub => .ub
    | .spin => .spin) = _
  rw [h]

theorem RT.bind {α β : Type} {w w' : List Byte} {r : R α} {f : α → R β} {v : α} {v' : β}
    (h : RT w r v) (h' : RT w' (f v) v') : RT (w ++ w') (r >>= f) v' := by
  intro rest
  rw [List.append_assoc, bind_apply r f _ _ v (h (w' ++ rest))]
  exact h' rest

theorem RT.last {α β : Type} {w : List Byte} {r : R α} {f : α → β} {v : α} (h : RT w r v) :
    RT w (r >>= fun a => Pure.pure (f a)) (f v) := by
  have := RT.bind (f := fun a => Pure.pure (f a)) h (RT.pure (f v))
  rwa [List.append_nil] at this

theorem orIn_eq (v : BitVec 32) (b : Byte) (k : Nat) : orIn v b k = v ||| (b.setWidth 32 <<< k) := by
  unfold orIn
  apply BitVec.eq_of_getLsbD_eq
  intro i hi
  simp only [BitVec.getLsbD_setWidth, BitVec.getLsbD_or, BitVec.getLsbD_signExtend, BitVec.getLsbD_shiftLeft]
  have h1 : i < 64 := by omega
  have h2 : i - k < 64 := by omega
  have h3 : i - k < 32 := by omega
  simp [hi, h1, h2, h3]

theorem piece {W : Nat} (v : Long) (k i : Nat) (hi : i < W) (hw : W ≤ 64) (hk : k < 64) :
    (((v.sshiftRight k).setWidth 8).setWidth W <<< k).getLsbD i = (decide (k ≤ i ∧ i < k + 8) && v.getLsbD i) := by
  simp only [BitVec.getLsbD_setWidth, BitVec.getLsbD_shiftLeft, BitVec.getLsbD_sshiftRight]
  by_cases h1 : k ≤ i
  · by_cases h2 : i < k + 8
    · simp [h1, h2, hi, show ¬ i < k by omega, show i - k < W by omega, show i - k < 8 by omega,
        show k + (i - k) = i by omega, show i < 64 by omega]
      intro _
      omega
    · simp [h2, show ¬ i - k < 8 by omega]
  · simp [h1, show i < k by omega]

theorem piece0 {W : Nat} (v : Long) (i : Nat) (hi : i < W) :
    ((v.setWidth 8).setWidth W <<< 0).getLsbD i = (decide (i < 8) && v.getLsbD i) := by
  simp only [BitVec.getLsbD_setWidth, BitVec.getLsbD_shiftLeft]
  simp [hi]

theorem host32_be32 (v : Long) : host32 ((v.sshiftRight 24).setWidth 8) ((v.sshiftRight 16).setWidth 8)
    ((v.sshiftRight 8).setWidth 8) (v.setWidth 8) = (v.setWidth 32).signExtend 64 := by
  unfold host32
  simp only [orIn_eq]
  congr 1
  apply BitVec.eq_of_getLsbD_eq
  intro i hi
  rw [BitVec.getLsbD_or, BitVec.getLsbD_or, BitVec.getLsbD_or, BitVec.getLsbD_or, piece _ _ _ hi (by omega) (by omega),
    piece _ _ _ hi (by omega) (by omega), piece _ _ _ hi (by omega) (by omega), piece0 _ _ hi, BitVec.getLsbD_setWidth]
  cases v.getLsbD i
  · simp
  · simp [hi]
    omega

theorem host64_be64 (v : Long) : host64 ((v.sshiftRight 56).setWidth 8) ((v.sshiftRight 48).setWidth 8)
    ((v.sshiftRight 40).setWidth 8) ((v.sshiftRight 32).setWidth 8) ((v.sshiftRight 24).setWidth 8)
    ((v.sshiftRight 16).setWidth 8) ((v.sshiftRight 8).setWidth 8) (v.setWidth 8) = v := by
  unfold host64
  apply BitVec.eq_of_getLsbD_eq
  intro i hi
  simp only [BitVec.getLsbD_or]
  rw [piece _ _ _ hi (by omega) (by omega), piece _ _ _ hi (by omega) (by omega), piece _ _ _ hi (by omega) (by omega),
    piece _ _ _ hi (by omega) (by omega), piece _ _ _ hi (by omega) (by omega), piece _ _ _ hi (by omega) (by omega),
    piece _ _ _ hi (by omega) (by omega), piece0 _ _ hi]
  cases v.getLsbD i
  · simp
  · simp
    omega

theorem rdbuf_rt (s : List Byte) (n : Nat) (h : n = s.length) : RT s (rdbuf n) s := by
  intro rest
  unfold rdbuf
  rw [if_pos (by simp; omega), h]
  simp

theorem rdbyte_rt (b : Byte) : RT (wrbyte b) rdbyte b := fun _ => rfl

theorem rdbool_rt (b : Bool) : RT (wrbool b) rdbool b := by
  intro rest
  cases b <;> rfl

theorem rdint_rt (v : Long) : RT (wrint v) rdint ((v.setWidth 32).signExtend 64) := by
  intro rest
  show rdint (be32 v ++ rest) = _
  rw [← host32_be32]
  rfl

/-- The numbers that survive: those of 32 bits. -/
def Small (v : Long) : Prop := (v.setWidth 32).signExtend 64 = v

theorem rdint_small (v : Long) (h : Small v) : RT (wrint v) rdint v := by
  have := rdint_rt v
  rwa [h] at this

theorem small_ofNat (n : Nat) (h : n < 2 ^ 31) : Small (BitVec.ofNat 64 n) := by
  unfold Small
  apply BitVec.eq_of_toInt_eq
  rw [BitVec.toInt_signExtend_of_le (by omega)]
  rw [BitVec.toInt_eq_toNat_cond, BitVec.toInt_eq_toNat_cond]
  simp only [BitVec.toNat_setWidth, BitVec.toNat_ofNat]
  rw [Nat.mod_eq_of_lt (a := n) (b := 2 ^ 64) (by omega), Nat.mod_eq_of_lt (by omega)]
  omega

theorem small_line (l : BitVec 32) : Small (l.signExtend 64) := by
  unfold Small
  congr 1
  apply BitVec.eq_of_getLsbD_eq
  intro i hi
  rw [BitVec.getLsbD_setWidth, BitVec.getLsbD_signExtend]
  simp [hi]
  omega

theorem rdline_rt (l : BitVec 32) : RT (wrline l) rdline l := by
  have h := RT.last (f := fun n : Long => n.setWidth 32) (rdint_small _ (small_line l))
  have e : (l.signExtend 64).setWidth 32 = l := by
    apply BitVec.eq_of_getLsbD_eq
    intro i hi
    rw [BitVec.getLsbD_setWidth, BitVec.getLsbD_signExtend]
    simp [hi]
    omega
  rw [e] at h
  exact h

theorem rdcnt_rt (n : Nat) (h : n < 2 ^ 31) : RT (wrcnt n) rdcnt n := by
  have g := RT.last (f := fun n : Long => n.toNat) (rdint_small _ (small_ofNat n h))
  rw [BitVec.toNat_ofNat, Nat.mod_eq_of_lt (by omega)] at g
  exact g

theorem rdcnti_rt (n : Nat) (h : n < 2 ^ 31) : RT (wrcnt n) rdcnti n := by
  have g := RT.last (f := fun n : Long => (n.setWidth 32).toInt.toNat) (rdint_small _ (small_ofNat n h))
  have e : ((BitVec.ofNat 64 n).setWidth 32).toInt.toNat = n := by
    rw [BitVec.toInt_eq_toNat_cond]
    simp only [BitVec.toNat_setWidth, BitVec.toNat_ofNat]
    rw [Nat.mod_eq_of_lt (a := n) (b := 2 ^ 64) (by omega), Nat.mod_eq_of_lt (by omega)]
    split
    · omega
    · omega
  rw [e] at g
  exact g

/-- A C string: no zero byte, shorter than 2^31. -/
def CStr : Option (List Byte) → Prop
  | none => True
  | some s => (0 : Byte) ∉ s ∧ s.length < 2 ^ 31

theorem ofNat_ne_neg (n : Nat) (h : n < 2 ^ 31) : BitVec.ofNat 64 n ≠ -1 := by
  intro e
  have := congrArg BitVec.toNat e
  rw [BitVec.toNat_ofNat, Nat.mod_eq_of_lt (by omega)] at this
  simp at this
  omega

theorem takeWhile_all {α : Type} (p : α → Bool) : ∀ l : List α, (∀ a ∈ l, p a = true) → l.takeWhile p = l
  | [], _ => rfl
  | a :: l, h => by
    rw [List.takeWhile_cons_of_pos (h a (by simp)), takeWhile_all p l (fun b hb => h b (by simp [hb]))]

theorem rdstr_rt (s : Option (List Byte)) (h : CStr s) : RT (wrstr s) rdstr s := by
  cases s with
  | none =>
    intro rest
    show rdstr (wrint (-1) ++ rest) = _
    unfold rdstr
    rw [bind_apply _ _ _ _ _ (rdint_small (-1) (by unfold Small; decide) rest)]
    rfl
  | some s =>
    obtain ⟨h1, h2⟩ := h
    show RT (wrint (BitVec.ofNat 64 s.length) ++ s) rdstr _
    unfold rdstr
    refine RT.bind (rdint_small _ (small_ofNat _ h2)) ?_
    rw [if_neg (ofNat_ne_neg _ h2), BitVec.toNat_ofNat, Nat.mod_eq_of_lt (by omega)]
    have := RT.last (f := fun s : List Byte => some (s.takeWhile (· ≠ 0))) (rdbuf_rt s _ rfl)
    rw [takeWhile_all _ s (by intro a ha; simp; rintro rfl; exact h1 ha)] at this
    exact this

theorem rdlenstr_rt (s : List Byte) (h : s.length < 2 ^ 31) : RT (wrlenstr s) rdlenstr s := by
  show RT (wrint (BitVec.ofNat 64 s.length) ++ s) rdlenstr _
  unfold rdlenstr
  refine RT.bind (rdint_small _ (small_ofNat _ h)) ?_
  rw [if_neg (ofNat_ne_neg _ h), BitVec.toNat_ofNat, Nat.mod_eq_of_lt (by omega)]
  exact rdbuf_rt s _ rfl

theorem rdflt_rt (v : BitVec 64) : RT (wrflt v) rdflt v := by
  intro rest
  show rdflt (be64 v ++ rest) = _
  conv_rhs => rw [← host64_be64 v]
  rfl

/-- A type reference that can be written. -/
def TyRef.Ok : TyRef → Prop
  | .none => True
  | .builtin t => t < 32
  | .id n => 0 < n ∧ n < 2 ^ 30

theorem and_mask (n : Nat) (h : n < 2 ^ 30) : BitVec.ofNat 64 n &&& builtinmask = 0 := by
  apply BitVec.eq_of_toNat_eq
  rw [BitVec.toNat_and, BitVec.toNat_ofNat, Nat.mod_eq_of_lt (by omega)]
  show n &&& 2 ^ 30 = 0
  apply Nat.eq_of_testBit_eq
  intro i
  rw [Nat.testBit_and, Nat.testBit_two_pow, Nat.zero_testBit]
  by_cases hi : 30 = i
  · subst hi
    simp [Nat.testBit_lt_two_pow h]
  · simp [hi]

theorem builtin_num : ∀ t : Fin 32, Small (BitVec.ofNat 64 t.val ||| builtinmask) ∧
    BitVec.ofNat 64 t.val ||| builtinmask ≠ 0 ∧ (BitVec.ofNat 64 t.val ||| builtinmask) &&& builtinmask ≠ 0 ∧
    ((BitVec.ofNat 64 t.val ||| builtinmask) &&& ~~~ builtinmask).toNat = t.val := by
  unfold Small
  decide +kernel

theorem rdtype_rt (t : TyRef) (h : t.Ok) : RT (wrtype t) rdtype t := by
  cases t with
  | none =>
    intro rest
    show rdtype (wrint 0 ++ rest) = _
    unfold rdtype
    rw [bind_apply _ _ _ _ _ (rdint_small 0 (by unfold Small; decide) rest)]
    rfl
  | builtin t =>
    intro rest
    obtain ⟨h1, h2, h3, h4⟩ := builtin_num ⟨t, h⟩
    show rdtype (wrint (BitVec.ofNat 64 t ||| builtinmask) ++ rest) = _
    unfold rdtype
    rw [bind_apply _ _ _ _ _ (rdint_small _ h1 rest)]
    rw [if_neg h2, if_pos h3, h4]
    rfl
  | id n =>
    intro rest
    obtain ⟨h1, h2⟩ := h
    show rdtype (wrint (BitVec.ofNat 64 n) ++ rest) = _
    unfold rdtype
    rw [bind_apply _ _ _ _ _ (rdint_small _ (small_ofNat n (by omega)) rest)]
    rw [if_neg, if_neg, BitVec.toNat_ofNat, Nat.mod_eq_of_lt (by omega)]
    · rfl
    · rw [and_mask n h2]; simp
    · intro e
      have := congrArg BitVec.toNat e
      rw [BitVec.toNat_ofNat, Nat.mod_eq_of_lt (by omega)] at this
      simp at this
      omega

/-- A trait reference that can be written. -/
def TrRef.Ok : TrRef → Prop
  | .builtin t => t < 32
  | .id n => n < 2 ^ 30

theorem rdtrait_rt (t : TrRef) (h : t.Ok) : RT (wrtrait t) rdtrait t := by
  cases t with
  | builtin t =>
    intro rest
    obtain ⟨h1, h2, h3, h4⟩ := builtin_num ⟨t, h⟩
    show rdtrait (wrint (BitVec.ofNat 64 t ||| builtinmask) ++ rest) = _
    unfold rdtrait
    rw [bind_apply _ _ _ _ _ (rdint_small _ h1 rest)]
    rw [if_pos h3, h4]
    rfl
  | id n =>
    intro rest
    have h2 : n < 2 ^ 30 := h
    show rdtrait (wrint (BitVec.ofNat 64 n) ++ rest) = _
    unfold rdtrait
    rw [bind_apply _ _ _ _ _ (rdint_small _ (small_ofNat n (by omega)) rest)]
    rw [if_neg, BitVec.toNat_ofNat, Nat.mod_eq_of_lt (by omega)]
    · rfl
    · rw [and_mask n h2]; simp

theorem rep_rt {α : Type} (w : α → List Byte) (r : R α) (nrm : α → α) : ∀ l : List α, (∀ a ∈ l, RT (w a) r (nrm a)) →
    RT (l.flatMap w) (rep r l.length) (l.map nrm)
  | [], _ => RT.pure _
  | a :: l, h => by
    rw [List.flatMap_cons]
    unfold rep
    refine RT.bind (h a (by simp)) ?_
    exact RT.last (rep_rt w r nrm l (fun b hb => h b (by simp [hb])))

theorem reptype_rt (l : List TyRef) (h : ∀ t ∈ l, t.Ok) : RT (wrtypes l) (rep rdtype l.length) l := by
  have := rep_rt wrtype rdtype id l (fun a ha => rdtype_rt a (h a ha))
  rwa [List.map_id] at this

end Verif.Use
