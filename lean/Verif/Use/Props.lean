import Verif.Use.Lemmas

/-!
# C44 and C67: interface files are read back
-/

namespace Verif.Use

/-! ## C44: primitive values -/

/-- A value of one of the kinds written into interface files (specification). -/
inductive Prim where
  | int (v : Long)
  | bool (b : Bool)
  | byte (b : Byte)
  | str (s : Option (List Byte))
  | lenstr (s : List Byte)
  | flt (v : BitVec 64)
deriving DecidableEq

/-- Writing a value of each kind. -/
def Prim.write : Prim → List Byte
  | .int v => wrint v
  | .bool b => wrbool b
  | .byte b => wrbyte b
  | .str s => wrstr s
  | .lenstr s => wrlenstr s
  | .flt v => wrflt v

/-- Reading a value of the kind of the given one. -/
def Prim.read : Prim → R Prim
  | .int _ => do let v ← rdint; pure (.int v)
  | .bool _ => do let v ← rdbool; pure (.bool v)
  | .byte _ => do let v ← rdbyte; pure (.byte v)
  | .str _ => do let v ← rdstr; pure (.str v)
  | .lenstr _ => do let v ← rdlenstr; pure (.lenstr v)
  | .flt _ => do let v ← rdflt; pure (.flt v)

/-- Reading a sequence of values of the kinds of the given ones. -/
def readAll : List Prim → R (List Prim)
  | [] => pure []
  | p :: ps => do
    let v ← p.read
    let vs ← readAll ps
    pure (v :: vs)

/-- Integers of at most 32 bits, strings of less than 2^31 bytes and without zero bytes. -/
def Prim.Ok : Prim → Prop
  | .int v => -2 ^ 31 ≤ v.toInt ∧ v.toInt < 2 ^ 31
  | .bool _ => True
  | .byte _ => True
  | .str none => True
  | .str (some s) => (0 : Byte) ∉ s ∧ s.length < 2 ^ 31
  | .lenstr s => s.length < 2 ^ 31
  | .flt _ => True

/-- The same without the bound on integers. -/
def Prim.Valid : Prim → Prop
  | .int _ => True
  | p => p.Ok

/-- C44 at full strength: integers are `long`s. -/
def PackFull : Prop := ∀ (ps : List Prim), (∀ p ∈ ps, p.Valid) →
  ∀ rest, readAll ps (ps.flatMap Prim.write ++ rest) = .ok (ps, rest)

theorem small_of_range (v : Long) (h1 : -2 ^ 31 ≤ v.toInt) (h2 : v.toInt < 2 ^ 31) : Small v := by
  unfold Small
  apply BitVec.eq_of_toInt_eq
  rw [BitVec.toInt_signExtend_of_le (by omega)]
  rw [BitVec.toInt_setWidth]
  have hv := v.isLt
  rw [BitVec.toInt_eq_toNat_cond] at h1 h2 ⊢
  split at h1
  · rw [if_pos (by assumption)] at h2 ⊢
    rw [Int.bmod_eq_of_le] <;> omega
  · rw [if_neg (by assumption)] at h2 ⊢
    rw [show ((v.toNat : Int)).bmod (2 ^ 32) = ((v.toNat : Int) - (2 ^ 64 : Nat)).bmod (2 ^ 32) from by
      rw [show ((2 ^ 64 : Nat) : Int) = (2 ^ 32 : Nat) * (2 ^ 32 : Int) by rfl]
      rw [Int.sub_mul_bmod_self_left]]
    rw [Int.bmod_eq_of_le] <;> omega

theorem prim_rt (p : Prim) (h : p.Ok) : RT p.write p.read p := by
  cases p with
  | int v => exact RT.last (f := Prim.int) (rdint_small v (small_of_range v h.1 h.2))
  | bool b => exact RT.last (f := Prim.bool) (rdbool_rt b)
  | byte b => exact RT.last (f := Prim.byte) (rdbyte_rt b)
  | str s => exact RT.last (f := Prim.str) (rdstr_rt s (by cases s <;> exact h))
  | lenstr s => exact RT.last (f := Prim.lenstr) (rdlenstr_rt s h)
  | flt v => exact RT.last (f := Prim.flt) (rdflt_rt v)

/-- **C44 (partial)**: any sequence of values is read back, and exactly the bytes written are
consumed.  Missing: integers that do not fit in 32 bits (`pack_violated`). -/
theorem pack_roundtrip_partial (ps : List Prim) (h : ∀ p ∈ ps, p.Ok) (rest : List Byte) :
    readAll ps (ps.flatMap Prim.write ++ rest) = .ok (ps, rest) := by
  have : RT (ps.flatMap Prim.write) (readAll ps) ps := by
    clear rest
    induction ps with
    | nil => exact RT.pure _
    | cons p ps ih =>
      rw [List.flatMap_cons]
      unfold readAll
      refine RT.bind (prim_rt p (h p (by simp))) ?_
      exact RT.last (f := fun vs => p :: vs) (ih (fun q hq => h q (by simp [hq])))
  exact this rest

/-- What an integer of any size is read back as: its low 32 bits, with sign. -/
theorem int_readback (v : Long) (rest : List Byte) :
    rdint (wrint v ++ rest) = .ok ((v.setWidth 32).signExtend 64, rest) := rdint_rt v rest

/-- **C44 is violated** for longs: 2^32 is read back as 0. -/
theorem pack_violated : ¬ PackFull := by
  intro h
  have := h [.int 0x100000000] (by simp [Prim.Valid]) []
  rw [show readAll [Prim.int 0x100000000] ([Prim.int 0x100000000].flatMap Prim.write ++ []) = .ok ([.int 0], []) by
    decide +kernel] at this
  simp at this

example : ∀ p ∈ [Prim.int (-5), .str (some [1, 2]), .str none, .lenstr [0, 0], .flt 3, .bool true], p.Ok := by
  simp [Prim.Ok]

/-! ## C67: syntax trees -/

mutual
/-- The tree can be written, and its integer literals satisfy `P` (specification). -/
def Node.Ok (P : BitVec 64 → Prop) : Node → Prop
  | .null => True
  | .block _ scope stmts => scope.Ok P ∧ stmts.length < 2 ^ 31 ∧ stmts.Ok P
  | .ifstmt _ c t f => c.Ok P ∧ t.Ok P ∧ f.Ok P
  | .loopstmt _ i c s b => i.Ok P ∧ c.Ok P ∧ s.Ok P ∧ b.Ok P
  | .iterstmt _ e s b => e.Ok P ∧ s.Ok P ∧ b.Ok P
  | .matchstmt _ v ms => v.Ok P ∧ ms.length < 2 ^ 31 ∧ ms.Ok P
  | .mtch _ p b => p.Ok P ∧ b.Ok P
  | .use _ _ n => CStr n
  | .expr _ _ ty param _ idx args => ty.Ok ∧ param.Ok ∧ idx.Ok P ∧ args.length < 2 ^ 31 ∧ args.Ok P
  | .lit _ ty nelt l => ty.Ok ∧ nelt < 2 ^ 31 ∧ l.Ok P
  | .name _ ns nm => CStr ns ∧ CStr nm
  | .decl _ nm ty _ _ _ _ _ init => nm.Ok P ∧ ty.Ok ∧ init.Ok P
  | .func _ ty scope args body => ty.Ok ∧ scope.Ok P ∧ args.length < 2 ^ 31 ∧ args.Ok P ∧ body.Ok P
  | .impl _ tn uid ty aux decls => tn.Ok P ∧ uid < 2 ^ 31 ∧ ty.Ok ∧ aux.length < 2 ^ 31 ∧ (∀ t ∈ aux, t.Ok) ∧
      decls.length < 2 ^ 31 ∧ decls.Ok P
/-- The same for literals. -/
def Lit.Ok (P : BitVec 64 → Prop) : Lit → Prop
  | .int v => P v
  | .str s => s.length < 2 ^ 31
  | .lbl s => CStr s
  | .func f => f.Ok P
  | .chr _ => True
  | .bool _ => True
  | .flt _ => True
  | .void => True
/-- The same for lists of nodes. -/
def Nodes.Ok (P : BitVec 64 → Prop) : Nodes → Prop
  | .nil => True
  | .cons n ns => n.Ok P ∧ ns.Ok P
/-- The same for symbol tables. -/
def Stab.Ok (P : BitVec 64 → Prop) : Stab → Prop
  | .mk nm dcls tys => CStr nm ∧ dcls.length < 2 ^ 31 ∧ dcls.Ok P ∧ tys.length < 2 ^ 31 ∧ tys.Ok P
/-- The same for lists of declarations. -/
def Syms.Ok (P : BitVec 64 → Prop) : Syms → Prop
  | .nil => True
  | .cons s ss => s.Ok P ∧ ss.Ok P
/-- The same for declarations. -/
def Sym.Ok (P : BitVec 64 → Prop) : Sym → Prop
  | .mk _ nm ty vis _ _ _ _ _ _ _ _ init => nm.Ok P ∧ ty.Ok ∧ vis < 2 ^ 31 ∧ init.Ok P
/-- The same for lists of types. -/
def STys.Ok (P : BitVec 64 → Prop) : STys → Prop
  | .nil => True
  | .cons nm t ts => nm.Ok P ∧ t.Ok ∧ ts.Ok P
end

mutual
/-- The tree as the importing compiler sees it (specification): the same, except that of the
visibility of declarations only `Vishidden` is kept and that an initialiser is there only if it is
exported. -/
def Node.imported : Node → Node
  | .null => .null
  | .block l scope stmts => .block l scope.imported stmts.imported
  | .ifstmt l c t f => .ifstmt l c.imported t.imported f.imported
  | .loopstmt l i c s b => .loopstmt l i.imported c.imported s.imported b.imported
  | .iterstmt l e s b => .iterstmt l e.imported s.imported b.imported
  | .matchstmt l v ms => .matchstmt l v.imported ms.imported
  | .mtch l p b => .mtch l p.imported b.imported
  | .use l i n => .use l i n
  | .expr l op ty param c idx args => .expr l op ty param c idx.imported args.imported
  | .lit l ty nelt v => .lit l ty nelt v.imported
  | .name l ns nm => .name l ns nm
  | .decl l nm ty c g e r p init => .decl l nm.imported ty c g e r p init.imported
  | .func l ty scope args body => .func l ty scope.imported args.imported body.imported
  | .impl l tn uid ty aux decls => .impl l tn.imported uid ty aux decls.imported
/-- The same for literals. -/
def Lit.imported : Lit → Lit
  | .func f => .func f.imported
  | .int v => .int v
  | .str v => .str v
  | .lbl v => .lbl v
  | .chr v => .chr v
  | .bool v => .bool v
  | .flt v => .flt v
  | .void => .void
/-- The same for lists of nodes. -/
def Nodes.imported : Nodes → Nodes
  | .nil => .nil
  | .cons n ns => .cons n.imported ns.imported
/-- The same for symbol tables. -/
def Stab.imported : Stab → Stab
  | .mk nm dcls tys => .mk nm dcls.imported tys.imported
/-- The same for lists of declarations. -/
def Syms.imported : Syms → Syms
  | .nil => .nil
  | .cons s ss => .cons s.imported ss.imported
/-- The same for declarations. -/
def Sym.imported : Sym → Sym
  | .mk l nm ty vis c g e p r x i f init =>
    .mk l nm.imported ty (if vis = vishidden then vishidden else 0) c g e p r x i f (if x then init.imported else .null)
/-- The same for lists of types. -/
def STys.imported : STys → STys
  | .nil => .nil
  | .cons nm t ts => .cons nm.imported t ts.imported
end

/-- Reading `r`, given fuel enough, recovers `v` from `w`. -/
def RTF {α : Type} (w : List Byte) (r : Nat → R α) (v : α) : Prop := ∃ k, ∀ f, k ≤ f → RT w (r f) v

theorem cond_rt {α : Type} (b : Bool) (w : List Byte) (r : R α) (v d : α) (h : b = true → RT w r v) (h' : b = false → v = d) :
    RT (if b then w else []) (rdopt b r d) v := by
  cases b with
  | true => exact h rfl
  | false => rw [h' rfl]; exact RT.pure d

theorem opt_rt {α : Type} [DecidableEq α] (d : α) (w : α → List Byte) (r : R α) (v' : α) (h : v' ≠ d → RT (w v') r v') :
    RT (if v' ≠ d then w v' else []) (rdopt (decide (v' ≠ d)) r d) v' := by
  by_cases hp : v' = d
  · simp only [hp, ne_eq, not_true_eq_false, decide_false, ↓reduceIte]
    exact RT.pure _
  · simp only [hp, ne_eq, not_false_eq_true, decide_true, ↓reduceIte]
    exact h hp

theorem vis_eq (vis : Nat) (h : vis < 2 ^ 31) : (BitVec.ofNat 64 vis = BitVec.ofNat 64 vishidden) ↔ vis = vishidden := by
  constructor
  · intro e
    have := congrArg BitVec.toNat e
    rw [BitVec.toNat_ofNat, BitVec.toNat_ofNat, Nat.mod_eq_of_lt (by omega)] at this
    exact this
  · rintro rfl; rfl

theorem chr_rt (v : BitVec 32) : RT (wrint (v.setWidth 64)) (do let v ← rdint; pure (Lit.chr (v.setWidth 32)) : R Lit) (.chr v) := by
  have h := RT.last (f := fun n : Long => Lit.chr (n.setWidth 32)) (rdint_rt (v.setWidth 64))
  have e : (((v.setWidth 64).setWidth 32).signExtend 64).setWidth 32 = v := by
    apply BitVec.eq_of_getLsbD_eq
    intro i hi
    rw [BitVec.getLsbD_setWidth, BitVec.getLsbD_signExtend]
    simp [hi]
    omega
  rw [e] at h
  exact h

mutual
theorem node_rt : ∀ n : Node, n.Ok Small → RTF (pickle n) unpickle n.imported
  | .null, _ => ⟨1, fun f hf => by
      obtain ⟨f, rfl⟩ : ∃ g, f = g + 1 := ⟨f - 1, by omega⟩
      rw [pickle, Node.imported, unpickle]
      intro rest
      rfl⟩
  | .block l scope stmts, h => by
    rw [Node.Ok] at h
    obtain ⟨k1, h1⟩ := stab_rt scope h.1
    obtain ⟨k2, ns, e2, h2⟩ := nodes_rt stmts h.2.2
    refine ⟨k1 + k2 + 1, fun f hf => ?_⟩
    obtain ⟨f, rfl⟩ : ∃ g, f = g + 1 := ⟨f - 1, by omega⟩
    simp only [pickle, Node.imported, unpickle, List.append_assoc]
    refine RT.bind (rdbyte_rt _) ?_
    repeat rw [if_neg (by decide)]
    refine RT.bind (rdline_rt l) ?_
    repeat rw [if_neg (by decide)]
    rw [if_pos rfl]
    refine RT.bind (h1 f (by omega)) ?_
    refine RT.bind (rdcnt_rt _ h.2.1) ?_
    rw [← e2]
    exact RT.last (f := fun a => Node.block l scope.imported (.ofList a)) (h2 f (by omega))
  | .ifstmt l c t e, h => by
    rw [Node.Ok] at h
    obtain ⟨k1, h1⟩ := node_rt c h.1
    obtain ⟨k2, h2⟩ := node_rt t h.2.1
    obtain ⟨k3, h3⟩ := node_rt e h.2.2
    refine ⟨k1 + k2 + k3 + 1, fun f hf => ?_⟩
    obtain ⟨f, rfl⟩ : ∃ g, f = g + 1 := ⟨f - 1, by omega⟩
    simp only [pickle, Node.imported, unpickle, List.append_assoc]
    refine RT.bind (rdbyte_rt _) ?_
    repeat rw [if_neg (by decide)]
    refine RT.bind (rdline_rt l) ?_
    repeat rw [if_neg (by decide)]
    rw [if_pos rfl]
    refine RT.bind (h1 f (by omega)) ?_
    refine RT.bind (h2 f (by omega)) ?_
    exact RT.last (f := fun a => Node.ifstmt l c.imported t.imported a) (h3 f (by omega))
  | .loopstmt l i c s b, h => by
    rw [Node.Ok] at h
    obtain ⟨k1, h1⟩ := node_rt i h.1
    obtain ⟨k2, h2⟩ := node_rt c h.2.1
    obtain ⟨k3, h3⟩ := node_rt s h.2.2.1
    obtain ⟨k4, h4⟩ := node_rt b h.2.2.2
    refine ⟨k1 + k2 + k3 + k4 + 1, fun f hf => ?_⟩
    obtain ⟨f, rfl⟩ : ∃ g, f = g + 1 := ⟨f - 1, by omega⟩
    simp only [pickle, Node.imported, unpickle, List.append_assoc]
    refine RT.bind (rdbyte_rt _) ?_
    repeat rw [if_neg (by decide)]
    refine RT.bind (rdline_rt l) ?_
    repeat rw [if_neg (by decide)]
    rw [if_pos rfl]
    refine RT.bind (h1 f (by omega)) ?_
    refine RT.bind (h2 f (by omega)) ?_
    refine RT.bind (h3 f (by omega)) ?_
    exact RT.last (f := fun a => Node.loopstmt l i.imported c.imported s.imported a) (h4 f (by omega))
  | .iterstmt l e s b, h => by
    rw [Node.Ok] at h
    obtain ⟨k1, h1⟩ := node_rt e h.1
    obtain ⟨k2, h2⟩ := node_rt s h.2.1
    obtain ⟨k3, h3⟩ := node_rt b h.2.2
    refine ⟨k1 + k2 + k3 + 1, fun f hf => ?_⟩
    obtain ⟨f, rfl⟩ : ∃ g, f = g + 1 := ⟨f - 1, by omega⟩
    simp only [pickle, Node.imported, unpickle, List.append_assoc]
    refine RT.bind (rdbyte_rt _) ?_
    repeat rw [if_neg (by decide)]
    refine RT.bind (rdline_rt l) ?_
    repeat rw [if_neg (by decide)]
    rw [if_pos rfl]
    refine RT.bind (h1 f (by omega)) ?_
    refine RT.bind (h2 f (by omega)) ?_
    exact RT.last (f := fun a => Node.iterstmt l e.imported s.imported a) (h3 f (by omega))
  | .matchstmt l v ms, h => by
    rw [Node.Ok] at h
    obtain ⟨k1, h1⟩ := node_rt v h.1
    obtain ⟨k2, ns, e2, h2⟩ := nodes_rt ms h.2.2
    refine ⟨k1 + k2 + 1, fun f hf => ?_⟩
    obtain ⟨f, rfl⟩ : ∃ g, f = g + 1 := ⟨f - 1, by omega⟩
    simp only [pickle, Node.imported, unpickle, List.append_assoc]
    refine RT.bind (rdbyte_rt _) ?_
    repeat rw [if_neg (by decide)]
    refine RT.bind (rdline_rt l) ?_
    repeat rw [if_neg (by decide)]
    rw [if_pos rfl]
    refine RT.bind (h1 f (by omega)) ?_
    refine RT.bind (rdcnt_rt _ h.2.1) ?_
    rw [← e2]
    exact RT.last (f := fun a => Node.matchstmt l v.imported (.ofList a)) (h2 f (by omega))
  | .mtch l p b, h => by
    rw [Node.Ok] at h
    obtain ⟨k1, h1⟩ := node_rt p h.1
    obtain ⟨k2, h2⟩ := node_rt b h.2
    refine ⟨k1 + k2 + 1, fun f hf => ?_⟩
    obtain ⟨f, rfl⟩ : ∃ g, f = g + 1 := ⟨f - 1, by omega⟩
    simp only [pickle, Node.imported, unpickle, List.append_assoc]
    refine RT.bind (rdbyte_rt _) ?_
    repeat rw [if_neg (by decide)]
    refine RT.bind (rdline_rt l) ?_
    repeat rw [if_neg (by decide)]
    rw [if_pos rfl]
    refine RT.bind (h1 f (by omega)) ?_
    exact RT.last (f := fun a => Node.mtch l p.imported a) (h2 f (by omega))
  | .use l i n, h => by
    rw [Node.Ok] at h
    refine ⟨1, fun f hf => ?_⟩
    obtain ⟨f, rfl⟩ : ∃ g, f = g + 1 := ⟨f - 1, by omega⟩
    simp only [pickle, Node.imported, unpickle, List.append_assoc]
    refine RT.bind (rdbyte_rt _) ?_
    repeat rw [if_neg (by decide)]
    refine RT.bind (rdline_rt l) ?_
    repeat rw [if_neg (by decide)]
    rw [if_pos rfl]
    refine RT.bind (rdbool_rt _) ?_
    exact RT.last (f := fun a => Node.use l i a) (rdstr_rt n h)
  | .expr l op ty param c idx args, h => by
    rw [Node.Ok] at h
    obtain ⟨k1, h1⟩ := node_rt idx h.2.2.1
    obtain ⟨k2, ns, e2, h2⟩ := nodes_rt args h.2.2.2.2
    refine ⟨k1 + k2 + 1, fun f hf => ?_⟩
    obtain ⟨f, rfl⟩ : ∃ g, f = g + 1 := ⟨f - 1, by omega⟩
    simp only [pickle, Node.imported, unpickle, List.append_assoc]
    refine RT.bind (rdbyte_rt _) ?_
    refine RT.bind (rdline_rt l) ?_
    rw [if_pos rfl]
    refine RT.bind (rdbyte_rt _) ?_
    refine RT.bind (rdtype_rt _ h.1) ?_
    refine RT.bind (rdbool_rt _) ?_
    refine RT.bind (opt_rt _ _ _ _ (fun _ => rdtype_rt _ h.2.1)) ?_
    refine RT.bind (rdbool_rt _) ?_
    refine RT.bind (h1 f (by omega)) ?_
    refine RT.bind (rdcnt_rt _ h.2.2.2.1) ?_
    rw [← e2]
    exact RT.last (f := fun a => Node.expr l op ty param c idx.imported (.ofList a)) (h2 f (by omega))
  | .lit l ty nelt v, h => by
    rw [Node.Ok] at h
    obtain ⟨k1, h1⟩ := lit_rt v h.2.2
    refine ⟨k1 + 1, fun f hf => ?_⟩
    obtain ⟨f, rfl⟩ : ∃ g, f = g + 1 := ⟨f - 1, by omega⟩
    simp only [pickle, Node.imported, unpickle, List.append_assoc]
    refine RT.bind (rdbyte_rt _) ?_
    repeat rw [if_neg (by decide)]
    refine RT.bind (rdline_rt l) ?_
    repeat rw [if_neg (by decide)]
    rw [if_pos rfl]
    refine RT.bind (rdbyte_rt _) ?_
    refine RT.bind (rdtype_rt _ h.1) ?_
    refine RT.bind (rdcnt_rt _ h.2.1) ?_
    exact RT.last (f := fun a => Node.lit l ty nelt a) (h1 f (by omega))
  | .name l ns nm, h => by
    rw [Node.Ok] at h
    refine ⟨1, fun f hf => ?_⟩
    obtain ⟨f, rfl⟩ : ∃ g, f = g + 1 := ⟨f - 1, by omega⟩
    simp only [pickle, Node.imported, unpickle, List.append_assoc]
    refine RT.bind (rdbyte_rt _) ?_
    refine RT.bind (rdline_rt l) ?_
    rw [if_pos rfl]
    refine RT.bind (rdbool_rt _) ?_
    refine RT.bind (opt_rt _ _ _ _ (fun _ => rdstr_rt _ h.1)) ?_
    exact RT.last (f := fun a => Node.name l ns a) (rdstr_rt nm h.2)
  | .decl l nm ty c g e r p init, h => by
    rw [Node.Ok] at h
    obtain ⟨k1, h1⟩ := node_rt nm h.1
    obtain ⟨k2, h2⟩ := node_rt init h.2.2
    refine ⟨k1 + k2 + 1, fun f hf => ?_⟩
    obtain ⟨f, rfl⟩ : ∃ g, f = g + 1 := ⟨f - 1, by omega⟩
    simp only [pickle, Node.imported, unpickle, List.append_assoc]
    refine RT.bind (rdbyte_rt _) ?_
    repeat rw [if_neg (by decide)]
    refine RT.bind (rdline_rt l) ?_
    repeat rw [if_neg (by decide)]
    rw [if_pos rfl]
    refine RT.bind (h1 f (by omega)) ?_
    refine RT.bind (rdtype_rt _ h.2.1) ?_
    refine RT.bind (rdbool_rt _) ?_
    refine RT.bind (rdbool_rt _) ?_
    refine RT.bind (rdbool_rt _) ?_
    refine RT.bind (rdbool_rt _) ?_
    refine RT.bind (rdbool_rt _) ?_
    exact RT.last (f := fun a => Node.decl l nm.imported ty c g e r p a) (h2 f (by omega))
  | .func l ty scope args body, h => by
    rw [Node.Ok] at h
    obtain ⟨k1, h1⟩ := stab_rt scope h.2.1
    obtain ⟨k2, ns, e2, h2⟩ := nodes_rt args h.2.2.2.1
    obtain ⟨k3, h3⟩ := node_rt body h.2.2.2.2
    refine ⟨k1 + k2 + k3 + 1, fun f hf => ?_⟩
    obtain ⟨f, rfl⟩ : ∃ g, f = g + 1 := ⟨f - 1, by omega⟩
    simp only [pickle, Node.imported, unpickle, List.append_assoc]
    refine RT.bind (rdbyte_rt _) ?_
    repeat rw [if_neg (by decide)]
    refine RT.bind (rdline_rt l) ?_
    repeat rw [if_neg (by decide)]
    rw [if_pos rfl]
    refine RT.bind (rdtype_rt _ h.1) ?_
    refine RT.bind (h1 f (by omega)) ?_
    refine RT.bind (rdcnt_rt _ h.2.2.1) ?_
    rw [← e2]
    refine RT.bind (h2 f (by omega)) ?_
    exact RT.last (f := fun a => Node.func l ty scope.imported (.ofList ns) a) (h3 f (by omega))
  | .impl l tn uid ty aux decls, h => by
    rw [Node.Ok] at h
    obtain ⟨k1, h1⟩ := node_rt tn h.1
    obtain ⟨k2, ns, e2, h2⟩ := syms_rt decls h.2.2.2.2.2.2
    refine ⟨k1 + k2 + 1, fun f hf => ?_⟩
    obtain ⟨f, rfl⟩ : ∃ g, f = g + 1 := ⟨f - 1, by omega⟩
    simp only [pickle, Node.imported, unpickle, List.append_assoc]
    refine RT.bind (rdbyte_rt _) ?_
    repeat rw [if_neg (by decide)]
    refine RT.bind (rdline_rt l) ?_
    repeat rw [if_neg (by decide)]
    rw [if_pos rfl]
    refine RT.bind (h1 f (by omega)) ?_
    refine RT.bind (rdcnt_rt _ h.2.1) ?_
    refine RT.bind (rdtype_rt _ h.2.2.1) ?_
    refine RT.bind (rdcnt_rt _ h.2.2.2.1) ?_
    refine RT.bind (reptype_rt _ h.2.2.2.2.1) ?_
    refine RT.bind (rdcnt_rt _ h.2.2.2.2.2.1) ?_
    rw [← e2]
    exact RT.last (f := fun a => Node.impl l tn.imported uid ty aux (.ofList a)) (h2 f (by omega))
theorem lit_rt : ∀ v : Lit, v.Ok Small → RTF (wrlit v) (fun f => rdlit (unpickle f) (littype v)) v.imported
  | .int v, h => by
    rw [Lit.Ok] at h
    refine ⟨0, fun f _ => ?_⟩
    simp only [wrlit, littype, Lit.imported, rdlit]
    exact RT.last (f := Lit.int) (rdint_small v h)
  | .str v, h => by
    rw [Lit.Ok] at h
    refine ⟨0, fun f _ => ?_⟩
    simp only [wrlit, littype, Lit.imported, rdlit]
    exact RT.last (f := Lit.str) (rdlenstr_rt v h)
  | .lbl v, h => by
    rw [Lit.Ok] at h
    refine ⟨0, fun f _ => ?_⟩
    simp only [wrlit, littype, Lit.imported, rdlit]
    exact RT.last (f := Lit.lbl) (rdstr_rt v h)
  | .func v, h => by
    rw [Lit.Ok] at h
    obtain ⟨k, hk⟩ := node_rt v h
    refine ⟨k, fun f hf => ?_⟩
    simp only [wrlit, littype, Lit.imported, rdlit]
    exact RT.last (f := Lit.func) (hk f hf)
  | .chr v, _ => by
    refine ⟨0, fun f _ => ?_⟩
    simp only [wrlit, littype, Lit.imported, rdlit]
    exact chr_rt v
  | .bool v, _ => by
    refine ⟨0, fun f _ => ?_⟩
    simp only [wrlit, littype, Lit.imported, rdlit]
    exact RT.last (f := Lit.bool) (rdbool_rt v)
  | .flt v, _ => by
    refine ⟨0, fun f _ => ?_⟩
    simp only [wrlit, littype, Lit.imported, rdlit]
    exact RT.last (f := Lit.flt) (rdflt_rt v)
  | .void, _ => by
    refine ⟨0, fun f _ => ?_⟩
    simp only [wrlit, littype, Lit.imported, rdlit]
    exact RT.pure _
theorem nodes_rt : ∀ ns : Nodes, ns.Ok Small → ∃ k l, Nodes.ofList l = ns.imported ∧
    ∀ f, k ≤ f → RT (pickles ns) (rep (unpickle f) ns.length) l
  | .nil, _ => ⟨0, [], rfl, fun f _ => by rw [pickles, Nodes.length, rep]; exact RT.pure _⟩
  | .cons n ns, h => by
    rw [Nodes.Ok] at h
    obtain ⟨k1, h1⟩ := node_rt n h.1
    obtain ⟨k2, l, e2, h2⟩ := nodes_rt ns h.2
    refine ⟨k1 + k2, n.imported :: l, by rw [Nodes.ofList, e2, Nodes.imported], fun f hf => ?_⟩
    rw [pickles, Nodes.length, rep]
    refine RT.bind (h1 f (by omega)) ?_
    exact RT.last (f := fun as => n.imported :: as) (h2 f (by omega))
theorem stab_rt : ∀ s : Stab, s.Ok Small → RTF (wrstab s) (fun f => rdstab (unpickle f)) s.imported
  | .mk nm dcls tys, h => by
    rw [Stab.Ok] at h
    obtain ⟨k1, l1, e1, h1⟩ := syms_rt dcls h.2.2.1
    obtain ⟨k2, l2, e2, h2⟩ := stys_rt tys h.2.2.2.2
    refine ⟨k1 + k2, fun f hf => ?_⟩
    simp only [wrstab, Stab.imported, rdstab, List.append_assoc]
    refine RT.bind (rdstr_rt _ h.1) ?_
    refine RT.bind (rdcnti_rt _ h.2.1) ?_
    refine RT.bind (h1 f (by omega)) ?_
    refine RT.bind (rdcnti_rt _ h.2.2.2.1) ?_
    rw [← e1, ← e2]
    exact RT.last (f := fun a => Stab.mk nm (.ofList l1) (.ofList a)) (h2 f (by omega))
theorem syms_rt : ∀ ns : Syms, ns.Ok Small → ∃ k l, Syms.ofList l = ns.imported ∧
    ∀ f, k ≤ f → RT (wrsyms ns) (rep (rdsym (unpickle f)) ns.length) l
  | .nil, _ => ⟨0, [], rfl, fun f _ => by rw [wrsyms, Syms.length, rep]; exact RT.pure _⟩
  | .cons n ns, h => by
    rw [Syms.Ok] at h
    obtain ⟨k1, h1⟩ := sym_rt n h.1
    obtain ⟨k2, l, e2, h2⟩ := syms_rt ns h.2
    refine ⟨k1 + k2, n.imported :: l, by rw [Syms.ofList, e2, Syms.imported], fun f hf => ?_⟩
    rw [wrsyms, Syms.length, rep]
    refine RT.bind (h1 f (by omega)) ?_
    exact RT.last (f := fun as => n.imported :: as) (h2 f (by omega))
theorem sym_rt : ∀ s : Sym, s.Ok Small → RTF (wrsym s) (fun f => rdsym (unpickle f)) s.imported
  | .mk l nm ty vis c g e p r x i fi init, h => by
    rw [Sym.Ok] at h
    obtain ⟨k1, h1⟩ := node_rt nm h.1
    obtain ⟨k2, h2⟩ := node_rt init h.2.2.2
    refine ⟨k1 + k2, fun f hf => ?_⟩
    simp only [wrsym, Sym.imported, rdsym, List.append_assoc]
    refine RT.bind (rdline_rt _) ?_
    refine RT.bind (h1 f (by omega)) ?_
    refine RT.bind (rdtype_rt _ h.2.1) ?_
    refine RT.bind (rdint_small _ (small_ofNat _ h.2.2.1)) ?_
    refine RT.bind (rdbool_rt _) ?_
    refine RT.bind (rdbool_rt _) ?_
    refine RT.bind (rdbool_rt _) ?_
    refine RT.bind (rdbool_rt _) ?_
    refine RT.bind (rdbool_rt _) ?_
    refine RT.bind (rdbool_rt _) ?_
    refine RT.bind (rdbool_rt _) ?_
    refine RT.bind (rdbool_rt _) ?_
    simp only [vis_eq vis h.2.2.1]
    refine RT.last (f := fun a => Sym.mk l nm.imported ty (if vis = vishidden then vishidden else 0) c g e p r x i fi a) ?_
    cases x with
    | true => exact h2 f (by omega)
    | false => exact RT.pure _
theorem stys_rt : ∀ ns : STys, ns.Ok Small → ∃ k l, STys.ofList l = ns.imported ∧
    ∀ f, k ≤ f → RT (wrstys ns) (rep (rdsty (unpickle f)) ns.length) l
  | .nil, _ => ⟨0, [], rfl, fun f _ => by rw [wrstys, STys.length, rep]; exact RT.pure _⟩
  | .cons n t ns, h => by
    rw [STys.Ok] at h
    obtain ⟨k1, h1⟩ := node_rt n h.1
    obtain ⟨k2, l, e2, h2⟩ := stys_rt ns h.2.2
    refine ⟨k1 + k2, (n.imported, t) :: l, by rw [STys.ofList, e2, STys.imported], fun f hf => ?_⟩
    rw [wrstys, STys.length, rep, rdsty]
    refine RT.bind (v := (n.imported, t)) ?_ ?_
    · refine RT.bind (h1 f (by omega)) ?_
      exact RT.last (f := fun a => (n.imported, a)) (rdtype_rt _ h.2.1)
    · exact RT.last (f := fun as => (n.imported, t) :: as) (h2 f (by omega))
end

/-- C67 at full strength: any tree that can be written is read back, given enough stack. -/
def TreeFull : Prop := ∀ n : Node, n.Ok (fun _ => True) →
  ∃ k, ∀ f, k ≤ f → ∀ rest, unpickle f (pickle n ++ rest) = .ok (n.imported, rest)

/-- **C67 (partial)**: a syntax tree written into an interface file is read back as it was, and
exactly its bytes are consumed.  Missing: trees with integer literals that do not fit in 32 bits
with sign (`tree_violated`). -/
theorem tree_roundtrip_partial (n : Node) (h : n.Ok Small) :
    ∃ k, ∀ f, k ≤ f → ∀ rest, unpickle f (pickle n ++ rest) = .ok (n.imported, rest) := by
  obtain ⟨k, hk⟩ := node_rt n h
  exact ⟨k, fun f hf rest => hk f hf rest⟩

/-- **C67 (partial)**: declarations (`D` and `G` records). -/
theorem sym_roundtrip_partial (s : Sym) (h : s.Ok Small) :
    ∃ k, ∀ f, k ≤ f → ∀ rest, rdsym (unpickle f) (wrsym s ++ rest) = .ok (s.imported, rest) := by
  obtain ⟨k, hk⟩ := sym_rt s h
  exact ⟨k, fun f hf rest => hk f hf rest⟩

/-- What any integer literal becomes in the importing file. -/
theorem literal_imported (line : BitVec 32) (t : TyRef) (ht : t.Ok) (nelt : Nat) (hn : nelt < 2 ^ 31) (v : BitVec 64)
    (f : Nat) (rest : List Byte) :
    unpickle (f + 1) (pickle (.lit line t nelt (.int v)) ++ rest) =
      .ok (.lit line t nelt (.int ((v.setWidth 32).signExtend 64)), rest) := by
  have : RT (pickle (.lit line t nelt (.int v))) (unpickle (f + 1))
      (.lit line t nelt (.int ((v.setWidth 32).signExtend 64))) := by
    simp only [pickle, unpickle, List.append_assoc]
    refine RT.bind (rdbyte_rt _) ?_
    repeat rw [if_neg (by decide)]
    refine RT.bind (rdline_rt line) ?_
    repeat rw [if_neg (by decide)]
    rw [if_pos rfl]
    refine RT.bind (rdbyte_rt _) ?_
    refine RT.bind (rdtype_rt _ ht) ?_
    refine RT.bind (rdcnt_rt _ hn) ?_
    simp only [wrlit, littype, rdlit]
    exact RT.last (f := fun a => Node.lit line t nelt a) (RT.last (f := Lit.int) (rdint_rt v))
  exact this rest

/-- **C67 is violated**: the literal 0x80000000 in an exported generic becomes 0xffffffff80000000
in the file that imports it (and 0x100000000 becomes 0). -/
theorem tree_violated : ¬ TreeFull := by
  intro h
  obtain ⟨k, hk⟩ := h (.lit 1 (.builtin 14) 0 (.int 0x80000000)) (by simp [Node.Ok, TyRef.Ok, Lit.Ok])
  have h1 := hk (k + 1) (by omega) []
  rw [literal_imported _ _ (by simp [TyRef.Ok]) _ (by omega)] at h1
  simp [Node.imported, Lit.imported] at h1

/-- `{x; -> x + 2}` as a tree: a function with one argument and a block with a scope. -/
def sample : Node :=
  .func 3 (.id 77) (.mk none .nil .nil)
    (.cons (.decl 3 (.name 3 none (some [120])) (.builtin 6) true false false false false .null) .nil)
    (.block 4 (.mk (some [115]) (.cons (.mk 4 (.name 4 none (some [120])) (.builtin 6) 2 true false false false false true
        false false (.lit 4 (.builtin 6) 0 (.int 5))) .nil) .nil)
      (.cons (.expr 4 48 (.builtin 1) .none false .null (.cons (.expr 4 2 (.builtin 6) .none false .null
        (.cons (.expr 4 52 (.builtin 6) .none false .null (.cons (.name 4 none (some [120])) .nil))
        (.cons (.expr 4 54 (.builtin 6) .none false .null (.cons (.lit 4 (.builtin 6) 0 (.int 2)) .nil)) .nil))) .nil)) .nil))

example : sample.Ok Small := by
  simp [sample, Node.Ok, Nodes.Ok, Stab.Ok, Syms.Ok, Sym.Ok, STys.Ok, Lit.Ok, TyRef.Ok, CStr, Nodes.length, Syms.length,
    STys.length, Small]

/-! ### Types -/

/-- The type can be written (specification). -/
def TyBody.Ok (P : BitVec 64 → Prop) : TyBody → Prop
  | .unres nm => nm.Ok P
  | .param trs pname => trs.length < 2 ^ 31 ∧ (∀ t ∈ trs, t.Ok) ∧ CStr pname
  | .struct ds => ds.length < 2 ^ 31 ∧ ∀ d ∈ ds, d.Ok P
  | .union us => us.length < 2 ^ 31 ∧ ∀ u ∈ us, u.id < 2 ^ 31 ∧ u.name.Ok P ∧ u.etype.Ok
  | .array sub asize => sub.Ok ∧ asize.Ok P
  | .slice sub => sub.Ok
  | .name nm args sub => nm.Ok P ∧ args.length < 2 ^ 31 ∧ (∀ t ∈ args, t.Ok) ∧ sub.Ok
  | .generic nm ps sub => nm.Ok P ∧ ps.length < 2 ^ 31 ∧ (∀ t ∈ ps, t.Ok) ∧ sub.Ok
  | .other t subs => t ∉ [27, 26, 23, 24, 21, 20, 28, 29] ∧ subs.length < 2 ^ 31 ∧ ∀ t ∈ subs, t.Ok

/-- The type can be written (specification). -/
def PTy.Ok (P : BitVec 64 → Prop) (t : PTy) : Prop :=
  t.spec.length < 2 ^ 31 ∧ (∀ s ∈ t.spec, s.traits.length < 2 ^ 31 ∧ (∀ n ∈ s.traits, n.Ok P) ∧ s.param.Ok ∧ s.aux.Ok) ∧
    t.seqaux.Ok ∧ t.body.Ok P

/-- The type as the importing compiler sees it (specification). -/
def TyBody.imported : TyBody → TyBody
  | .unres nm => .unres nm.imported
  | .param trs pname => .param trs pname
  | .struct ds => .struct (ds.map Node.imported)
  | .union us => .union (us.map fun u => { u with name := u.name.imported })
  | .array sub asize => .array sub asize.imported
  | .slice sub => .slice sub
  | .name nm args sub => .name nm.imported args sub
  | .generic nm ps sub => .generic nm.imported ps sub
  | .other t subs => .other t subs

/-- The type as the importing compiler sees it (specification). -/
def PTy.imported (t : PTy) : PTy :=
  { vis := if t.vis = BitVec.ofNat 8 vishidden then t.vis else 0
    spec := t.spec.map fun s => { s with traits := s.traits.map Node.imported }
    seqaux := t.seqaux
    body := t.body.imported }

theorem rtf_list {α : Type} (w : α → List Byte) (r : Nat → R α) (nrm : α → α) : ∀ l : List α,
    (∀ a ∈ l, RTF (w a) r (nrm a)) → ∃ k, ∀ f, k ≤ f → ∀ a ∈ l, RT (w a) (r f) (nrm a)
  | [], _ => ⟨0, fun _ _ => by simp⟩
  | a :: l, h => by
    obtain ⟨k1, h1⟩ := h a (by simp)
    obtain ⟨k2, h2⟩ := rtf_list w r nrm l (fun b hb => h b (by simp [hb]))
    refine ⟨k1 + k2, fun f hf b hb => ?_⟩
    simp only [List.mem_cons] at hb
    rcases hb with rfl | hb
    · exact h1 f (by omega)
    · exact h2 f (by omega) b hb

theorem replist_rt {α : Type} (w : α → List Byte) (r : Nat → R α) (nrm : α → α) (l : List α)
    (h : ∀ a ∈ l, RTF (w a) r (nrm a)) : RTF (l.flatMap w) (fun f => rep (r f) l.length) (l.map nrm) := by
  obtain ⟨k, hk⟩ := rtf_list w r nrm l h
  exact ⟨k, fun f hf => rep_rt w (r f) nrm l (hk f hf)⟩

theorem ucon_rt (u : Ucon) (h : u.id < 2 ^ 31 ∧ u.name.Ok Small ∧ u.etype.Ok) :
    RTF (wrucon u) (fun f => rducon (unpickle f)) { u with name := u.name.imported } := by
  obtain ⟨k, hk⟩ := node_rt u.name h.2.1
  refine ⟨k, fun f hf => ?_⟩
  simp only [wrucon, rducon, List.append_assoc]
  refine RT.bind (rdline_rt _) ?_
  refine RT.bind (rdcnt_rt _ h.1) ?_
  refine RT.bind (rdbool_rt _) ?_
  refine RT.bind (hk f hf) ?_
  refine RT.bind (rdbool_rt _) ?_
  exact RT.last (f := fun a => Ucon.mk u.line u.id u.synth u.name.imported a)
    (opt_rt _ _ _ _ (fun _ => rdtype_rt _ h.2.2))

theorem spec_rt (s : Spec) (h : s.traits.length < 2 ^ 31 ∧ (∀ n ∈ s.traits, n.Ok Small) ∧ s.param.Ok ∧ s.aux.Ok) :
    RTF (wrspec s) (fun f => rdspec (unpickle f)) { s with traits := s.traits.map Node.imported } := by
  obtain ⟨k, hk⟩ := replist_rt pickle unpickle Node.imported s.traits (fun a ha => node_rt a (h.2.1 a ha))
  refine ⟨k, fun f hf => ?_⟩
  simp only [wrspec, rdspec, List.append_assoc]
  refine RT.bind (rdcnt_rt _ h.1) ?_
  refine RT.bind (hk f hf) ?_
  refine RT.bind (rdtype_rt _ h.2.2.1) ?_
  refine RT.bind (rdbool_rt _) ?_
  exact RT.last (f := fun a => Spec.mk (s.traits.map Node.imported) s.param a)
    (opt_rt _ _ _ _ (fun _ => rdtype_rt _ h.2.2.2))

theorem body_rt : ∀ b : TyBody, b.Ok Small →
    RTF (wrbody b) (fun f => rdbody (unpickle f) (tytype b) (nsub b)) b.imported
  | .unres nm, h => by
    obtain ⟨k, hk⟩ := node_rt nm h
    exact ⟨k, fun f hf => RT.last (f := TyBody.unres) (hk f hf)⟩
  | .param trs pname, h => by
    obtain ⟨h1, h2, h3⟩ := h
    refine ⟨0, fun f hf => ?_⟩
    simp only [wrbody, List.append_assoc]
    refine RT.bind (rdcnt_rt _ h1) ?_
    have := rep_rt wrtrait rdtrait id trs (fun a ha => rdtrait_rt a (h2 a ha))
    rw [List.map_id] at this
    refine RT.bind this ?_
    exact RT.last (f := fun a => TyBody.param trs a) (rdstr_rt _ h3)
  | .struct ds, h => by
    obtain ⟨k, hk⟩ := replist_rt pickle unpickle Node.imported ds (fun a ha => node_rt a (h.2 a ha))
    refine ⟨k, fun f hf => ?_⟩
    simp only [wrbody]
    refine RT.bind (rdcnt_rt _ h.1) ?_
    exact RT.last (f := TyBody.struct) (hk f hf)
  | .union us, h => by
    obtain ⟨k, hk⟩ := replist_rt wrucon (fun f => rducon (unpickle f)) (fun u => { u with name := u.name.imported }) us
      (fun a ha => ucon_rt a (h.2 a ha))
    refine ⟨k, fun f hf => ?_⟩
    simp only [wrbody]
    refine RT.bind (rdcnt_rt _ h.1) ?_
    exact RT.last (f := TyBody.union) (hk f hf)
  | .array sub asize, h => by
    obtain ⟨k, hk⟩ := node_rt asize h.2
    refine ⟨k, fun f hf => ?_⟩
    simp only [wrbody]
    refine RT.bind (rdtype_rt _ h.1) ?_
    exact RT.last (f := fun a => TyBody.array sub a) (hk f hf)
  | .slice sub, h => ⟨0, fun f _ => RT.last (f := TyBody.slice) (rdtype_rt _ h)⟩
  | .name nm args sub, h => by
    obtain ⟨k, hk⟩ := node_rt nm h.1
    refine ⟨k, fun f hf => ?_⟩
    simp only [wrbody, List.append_assoc]
    refine RT.bind (hk f hf) ?_
    refine RT.bind (rdcnt_rt _ h.2.1) ?_
    refine RT.bind (reptype_rt _ h.2.2.1) ?_
    exact RT.last (f := fun a => TyBody.name nm.imported args a) (rdtype_rt _ h.2.2.2)
  | .generic nm args sub, h => by
    obtain ⟨k, hk⟩ := node_rt nm h.1
    refine ⟨k, fun f hf => ?_⟩
    simp only [wrbody, List.append_assoc]
    refine RT.bind (hk f hf) ?_
    refine RT.bind (rdcnt_rt _ h.2.1) ?_
    refine RT.bind (reptype_rt _ h.2.2.1) ?_
    exact RT.last (f := fun a => TyBody.generic nm.imported args a) (rdtype_rt _ h.2.2.2)
  | .other t subs, h => by
    obtain ⟨h1, h2, h3⟩ := h
    simp only [List.mem_cons, not_or] at h1
    refine ⟨0, fun f hf => ?_⟩
    simp only [wrbody, tytype, nsub, rdbody, h1, ↓reduceIte]
    exact RT.last (f := TyBody.other t) (reptype_rt _ h3)

theorem nsub_small (b : TyBody) (h : b.Ok Small) : nsub b < 2 ^ 31 := by
  cases b <;> simp only [nsub] <;> first | omega | exact h.2.1

/-- **C67 (partial), types** (`T` records and trait parameters): a type written into an interface
file is read back.  Missing as in `tree_roundtrip_partial`. -/
theorem type_roundtrip_partial (t : PTy) (h : t.Ok Small) :
    ∃ k, ∀ f, k ≤ f → ∀ rest, tyunpickle (unpickle f) (typickle t ++ rest) = .ok (t.imported, rest) := by
  obtain ⟨k1, h1⟩ := replist_rt wrspec (fun f => rdspec (unpickle f)) (fun s => { s with traits := s.traits.map Node.imported })
    t.spec (fun a ha => spec_rt a (h.2.1 a ha))
  obtain ⟨k2, h2⟩ := body_rt t.body h.2.2.2
  refine ⟨k1 + k2, fun f hf => ?_⟩
  have : RT (typickle t) (tyunpickle (unpickle f)) t.imported := by
    simp only [typickle, tyunpickle, List.append_assoc]
    refine RT.bind (rdbyte_rt _) ?_
    refine RT.bind (rdbyte_rt _) ?_
    refine RT.bind (rdcnt_rt _ h.1) ?_
    refine RT.bind (h1 f (by omega)) ?_
    refine RT.bind (rdtype_rt _ h.2.2.1) ?_
    refine RT.bind (rdcnt_rt _ (nsub_small _ h.2.2.2)) ?_
    exact RT.last (f := fun a => PTy.mk (if t.vis = BitVec.ofNat 8 vishidden then t.vis else 0)
      (t.spec.map fun s => { s with traits := s.traits.map Node.imported }) t.seqaux a) (h2 f (by omega))
  exact fun rest => this rest

/-- `struct; a : int; b : byte[:];;` with a constraint. -/
example : PTy.Ok Small ⟨1, [⟨[.name 1 none (some [116])], .id 9, .none⟩], .none,
    .struct [.decl 2 (.name 2 none (some [97])) (.builtin 6) false false false false false .null,
      .decl 3 (.name 3 none (some [98])) (.id 12) false false false false false .null]⟩ := by
  simp [PTy.Ok, TyBody.Ok, Node.Ok, TyRef.Ok, CStr]

end Verif.Use
