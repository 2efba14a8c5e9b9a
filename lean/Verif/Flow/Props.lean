import Verif.Flow.Reach

/-!
# C40, C41, C42: reaching definitions, undefined variables, missing returns
-/

namespace Verif.Flow

open Verif

/-! ## The checks always answer -/

/-- If every label jumped to is set, once, the graph is built, trimming ends, the sets are found and both checks answer. -/
theorem check_total (P : List Stmt) (void : Bool) (u : Unique P) (l : Labelled P) : ∃ F, ∀ fuel, F ≤ fuel →
    ∃ r, accepted fuel void P = .ok r := by
  have hraw : ∃ g, rawcfg P = .ok g := by
    unfold rawcfg
    simp only
    rw [if_pos]
    · exact ⟨_, rfl⟩
    · rw [List.all_eq_true]
      intro blk hb
      rw [List.all_eq_true]
      intro n hn
      rw [List.all_eq_true]
      intro x hx
      obtain ⟨k, hk⟩ := List.mem_iff_getElem?.1 hb
      have hn' : n ∈ nodesOf P k := by
        have hk' : (blocks P).bbs[k]? = some blk := hk
        simp [nodesOf, hk', hn]
      have hlab : .label x ∈ P := by
        rcases node_of hn' with h | ⟨_, y, h, hy⟩
        · have hm := List.mem_of_getElem? h
          obtain ⟨i, s⟩ := n
          cases s with
          | jmp y => simp [Stmt.labels] at hx; subst hx; exact l.1 _ hm
          | cjmp c a b =>
            simp [Stmt.labels] at hx
            rcases hx with rfl | rfl
            · exact (l.2 _ _ _ hm).1
            · exact (l.2 _ _ _ hm).2
          | _ => simp [Stmt.labels] at hx
        · rw [h] at hx; simp [Stmt.labels] at hx; subst hx; exact hy
      obtain ⟨j, hj⟩ := List.mem_iff_getElem?.1 hlab
      rw [find_label u hj]; rfl
  obtain ⟨g0, hg0⟩ := hraw
  obtain ⟨g, hg, c⟩ := mkcfg_ok hg0 (Nat.lt_succ_self _)
  -- the graph does not depend on the fuel
  have mono : ∀ f h h', trim f h = .ok h' → ∀ f', f ≤ f' → trim f' h = .ok h' := by
    intro f
    induction f with
    | zero => intro h h' e; cases e
    | succ f ih =>
      intro h h' e f' hf
      obtain ⟨f', rfl⟩ : ∃ k, f' = k + 1 := ⟨f' - 1, by omega⟩
      unfold trim at e ⊢
      rw [Res.bind_eq_ok] at e
      obtain ⟨p, e1, e2⟩ := e
      rw [e1, Res.bind_ok]
      split
      · rename_i hp
        rw [if_pos hp] at e2
        exact ih _ _ e2 f' (by omega)
      · rename_i hp
        rw [if_neg hp] at e2; exact e2
  refine ⟨g0.n + 1 + 3 + (g.n * (2 * (ids g).card) + 1), fun fuel hf => ?_⟩
  have hg' : mkcfg fuel P = .ok g := by
    unfold mkcfg at hg ⊢
    rw [hg0, Res.bind_ok] at hg ⊢
    exact mono _ _ _ hg _ (by omega)
  unfold accepted
  rw [hg', Res.bind_ok]
  have h1 : ∃ r, checkret fuel void g = .ok r := by
    unfold checkret
    split
    · exact ⟨_, rfl⟩
    · obtain ⟨f, rfl⟩ : ∃ k, fuel = k + 3 := ⟨fuel - 3, by omega⟩
      exact checkpredret_total c f
  obtain ⟨a, ha⟩ := h1
  obtain ⟨r, hr⟩ := reaching_stops (fun b hb => cfg_lt c hb) fuel (by omega : g.n * (2 * (ids g).card) < fuel)
  rw [ha, Res.bind_ok]
  unfold checkreach
  rw [hr, Res.bind_ok]
  exact ⟨_, rfl⟩

/-! ## C42 -/

/-- **C42.** If a function with a result is accepted, control never falls off its end. (A function without any return
statement has type `void`, `parse/infer.c:1926-1928`.) -/
theorem no_fall_off (P : List Stmt) (fuel : Nat) (u : Unique P) (hret : .ret ∈ P) (h : accepted fuel false P = .ok true) :
    ¬ Runs P 0 P.length := by
  unfold accepted at h
  rw [Res.bind_eq_ok] at h
  obtain ⟨g, hg, h⟩ := h
  rw [Res.bind_eq_ok] at h
  obtain ⟨a, ha, h⟩ := h
  rw [Res.bind_eq_ok] at h
  obtain ⟨b, hb, h⟩ := h
  have : a = false := by
    simp only [Res.ok.injEq, Bool.and_eq_true, Bool.not_eq_true'] at h; exact h.1
  subst this
  exact no_fall (mkcfg_cfg hg) u hret ha

/-- `while c { if d { return } }; exit(1)`; the list ends with the label of the function's end. -/
def loopRet : List Stmt :=
  [.jmp 2, .label 1, .cjmp (.op []) 3 4, .label 3, .ret, .label 4, .label 2, .cjmp (.op []) 1 5, .label 5,
   .ex (.call true (.op []) []), .label 9]

theorem unique_of (P : List Stmt) (h : (P.filterMap fun s => match s with | .label l => some l | _ => none).Nodup) : Unique P := by
  induction P with
  | nil => intro i j l hi; simp at hi
  | cons s P ih =>
    have key : ∀ (l : Nat), s = .label l → ∀ j : Nat, P[j]? ≠ some (.label l) := by
      rintro l rfl j hj
      rw [List.filterMap_cons] at h
      simp only [List.nodup_cons] at h
      exact h.1 (List.mem_filterMap.2 ⟨_, List.mem_of_getElem? hj, rfl⟩)
    have ih' : Unique P := by
      refine ih ?_
      rw [List.filterMap_cons] at h
      split at h
      · exact h
      · exact (List.nodup_cons.1 h).2
    intro i j l hi hj
    rcases i with _ | i <;> rcases j with _ | j
    · rfl
    · simp only [List.getElem?_cons_zero, Option.some.injEq, List.getElem?_cons_succ] at hi hj
      exact absurd hj (key l hi j)
    · simp only [List.getElem?_cons_zero, Option.some.injEq, List.getElem?_cons_succ] at hi hj
      exact absurd hi (key l hj i)
    · simp only [List.getElem?_cons_succ] at hi hj
      rw [ih' i j l hi hj]

/-- The answer, for examples. -/
def isOk : Res Bool → Bool → Bool
  | .ok a, b => a == b
  | _, _ => false

theorem of_isOk {r : Res Bool} {b : Bool} (h : isOk r b = true) : r = .ok b := by
  cases r <;> simp_all [isOk]

example : accepted 40 false loopRet = .ok true ∧ Unique loopRet ∧ .ret ∈ loopRet ∧ ¬ Runs loopRet 0 loopRet.length :=
  have h1 : accepted 40 false loopRet = .ok true := of_isOk (by decide +kernel)
  have h2 : Unique loopRet := unique_of _ (by decide)
  have h3 : Stmt.ret ∈ loopRet := by simp [loopRet]
  ⟨h1, h2, h3, no_fall_off _ _ h2 h3 h1⟩

/-- Without the call control falls off, and the function is rejected. -/
example : accepted 40 false (loopRet.take 9 ++ [.label 9]) = .ok false := of_isOk (by decide +kernel)

/-- The return statement is needed: the check accepts an empty body. -/
example : accepted 40 false [.label 9] = .ok true ∧ Runs [.label 9] 0 1 :=
  ⟨of_isOk (by decide +kernel), .tail .refl (.next rfl trivial)⟩

/-! ## C40 -/

/-- **C40.** Each assignment which reaches a block along a path of the graph is in the set of the block. -/
def FullClaim40 : Prop := ∀ (P : List Stmt) (f fuel : Nat) (g : G) (r : IO) (u d b : Nat) (s : Stmt),
  mkcfg f P = .ok g → reaching fuel g = .ok r → P[u]? = some s → s.sets d → Flows g u d b 0 → u ∈ (r b).1

/-- `x = 1; p# = 1; l: return`, where `x` has declaration id 0. -/
def store0 : List Stmt := [.set (.var 0 true) (.op []), .set (.op [.var 1 true]) (.op []), .label 9, .ret]

/-- Is node `u` in the set of block `b`? -/
def inTest (P : List Stmt) (u b : Nat) : Res Bool := do
  let g ← mkcfg 20 P
  let r ← reaching 40 g
  .ok (decide (u ∈ (r b).1))

theorem inTest_ok {P : List Stmt} {u b : Nat} {t : Bool} (h : inTest P u b = .ok t) : ∃ g r, mkcfg 20 P = .ok g ∧ reaching 40 g = .ok r ∧
    (t = true ↔ u ∈ (r b).1) := by
  unfold inTest at h
  rw [Res.bind_eq_ok] at h
  obtain ⟨g, hg, h⟩ := h
  rw [Res.bind_eq_ok] at h
  obtain ⟨r, hr, h⟩ := h
  cases h
  exact ⟨g, r, hg, hr, by simp⟩

/-- A store through a pointer is taken for an assignment to the variable with declaration id 0. -/
theorem reaching_violated : ¬ FullClaim40 := by
  intro h
  obtain ⟨g, r, hg, hr, hu⟩ := inTest_ok (t := false) (P := store0) (u := 0) (b := 2) (of_isOk (by decide +kernel))
  have c := mkcfg_cfg hg
  have hn := cfg_nodes c
  have h1 : g.nodes 1 = [(0, .set (.var 0 true) (.op [])), (1, .set (.op [.var 1 true]) (.op [])), (4, .jmp 9)] := by
    rw [hn]; rfl
  have hs : 2 ∈ g.succ 1 := by
    rw [cfg_succ c (one_live c), cfg_n c]
    simp only [succs, ← hn, h1, List.mem_append, List.mem_flatMap]
    exact Or.inr ⟨(4, .jmp 9), by simp, by decide⟩
  have hf : Flows g 0 0 1 3 := by
    refine .pass (.pass (.gen (one_live c) (s := .set (.var 0 true) (.op [])) (by rw [h1]; rfl)) (n := (1, .set (.op [.var 1 true]) (.op [])))
      (by rw [h1]; rfl) ?_) (n := (4, .jmp 9)) (by rw [h1]; rfl) ?_ <;> simp [Stmt.sets, Stmt.assigns]
  have := h store0 20 40 g r 0 0 2 (.set (.var 0 true) (.op [])) hg hr rfl (Or.inl rfl) (.edge (by rw [h1]; exact hf) hs)
  rw [← hu] at this; cases this

/-- **C40, partial.** For every variable but the one with declaration id 0 (a local variable never has it, since the
function is declared first) the sets are exact: they hold the assignments which reach the block, and no others. -/
theorem reaching_exact_partial (P : List Stmt) (f fuel : Nat) (g : G) (r : IO) (u d b : Nat) (s : Stmt) (hg : mkcfg f P = .ok g)
    (hr : reaching fuel g = .ok r) (hu : P[u]? = some s) (hs : s.sets d) (hd : d ≠ 0) : u ∈ (r b).1 ↔ Flows g u d b 0 := by
  have c := mkcfg_cfg hg
  constructor
  · intro h
    have := (reachloop_sound (closed_flows c) fuel _ _ (inv_empty _ _ _) hr).1
    exact this.s b u h d s hu hs
  · intro h
    have hfix := (reachloop_sound (closed_ids fun b hb => cfg_lt c hb) fuel _ _ (inv_empty _ _ _) hr).2
    simpa using flows_mem c hfix hd hu hs h

/-- No false positives for any variable. -/
theorem reaching_sound (P : List Stmt) (f fuel : Nat) (g : G) (r : IO) (u d b : Nat) (s : Stmt) (hg : mkcfg f P = .ok g)
    (hr : reaching fuel g = .ok r) (hu : P[u]? = some s) (hs : s.sets d) (h : u ∈ (r b).1) : Flows g u d b 0 :=
  (reachloop_sound (closed_flows (mkcfg_cfg hg)) fuel _ _ (inv_empty _ _ _) hr).1.s b u h d s hu hs

/-- The loop stops after a number of rounds bounded by the number of blocks and of nodes. -/
theorem reaching_ends (P : List Stmt) (f : Nat) (g : G) (hg : mkcfg f P = .ok g) : ∃ F, ∀ fuel, F ≤ fuel → ∃ r, reaching fuel g = .ok r :=
  ⟨g.n * (2 * (ids g).card) + 1, fun fuel hf => reaching_stops (fun _ hb => cfg_lt (mkcfg_cfg hg) hb) fuel (by omega)⟩

/-- A loop: the assignment in the body reaches the condition; the one before the loop reaches what follows. -/
def loopSet : List Stmt :=
  [.set (.var 5 true) (.op []), .jmp 2, .label 1, .set (.var 5 true) (.op [.var 5 true]), .label 2,
   .cjmp (.op [.var 5 true]) 1 3, .label 3, .ret]

example : inTest loopSet 0 3 = .ok true ∧ inTest loopSet 3 3 = .ok true ∧ inTest loopSet 3 4 = .ok true ∧ inTest loopSet 0 1 = .ok false :=
  ⟨of_isOk (by decide +kernel), of_isOk (by decide +kernel), of_isOk (by decide +kernel), of_isOk (by decide +kernel)⟩

/-! ## C41 -/

/-- **C41.** A function in which a scalar variable may be read before it gets a value is rejected. -/
def FullClaim41 : Prop := ∀ (P : List Stmt) (fuel d m : Nat) (void : Bool) (s : Stmt), Unique P → DeclFirst P d → d ≠ 0 →
  P[m]? = some s → d ∈ s.reads → Undefined P d m → accepted fuel void P ≠ .ok true

/-- `var x; x = x + 1`. -/
theorem undef_increment_violated : ¬ FullClaim41 := by
  intro h
  refine h [.undef 5, .set (.var 5 true) (.op [.var 5 true, .op []]), .label 9] 40 5 1 true _ (unique_of _ (by decide)) ?_ (by decide)
    rfl (by simp [Stmt.reads, Ex.lreads, Ex.reads, readsAll]) ⟨0, .refl, rfl, .refl⟩ (of_isOk (by decide +kernel))
  intro i j t h1 h2
  rcases j with _ | _ | _ | j
  · omega
  all_goals simp at h1

/-- `var p; p# = 1`. -/
theorem undef_store_violated : ¬ FullClaim41 := by
  intro h
  refine h [.undef 5, .set (.op [.var 5 true]) (.op []), .label 9] 40 5 1 true _ (unique_of _ (by decide)) ?_ (by decide)
    rfl (by simp [Stmt.reads, Ex.lreads, Ex.reads, readsAll]) ⟨0, .refl, rfl, .refl⟩ (of_isOk (by decide +kernel))
  intro i j t h1 h2
  rcases j with _ | _ | _ | j
  · omega
  all_goals simp at h1

mutual
theorem looks_plain : ∀ e : Ex, e.Plain → looks e = e.reads
  | .var _ _, _ => by simp [looks, Ex.reads]
  | .addr (.var _ _), _ => by simp [looks, Ex.reads]
  | .addr (.addr _), h => by simp [Ex.Plain] at h
  | .addr (.call _ _ _), h => by simp [Ex.Plain] at h
  | .addr (.op _), h => by simp [Ex.Plain] at h
  | .call _ f args, h => by
    simp only [Ex.Plain] at h
    simp only [looks, Ex.reads, h.1, List.nil_append]
    exact looksargs_plain args h.2
  | .op args, h => by
    simp only [Ex.Plain] at h
    simp only [looks, Ex.reads]
    exact looksall_plain args h
theorem looksargs_plain : ∀ l : List Ex, allPlain l → looksargs l = readsAll l
  | [], _ => by simp [looksargs, readsAll]
  | .addr (.var _ _) :: t, h => by
    simp only [allPlain] at h
    simp [looksargs, readsAll, Ex.reads, looksargs_plain t h.2]
  | .addr (.addr _) :: t, h => by simp [allPlain, Ex.Plain] at h
  | .addr (.call _ _ _) :: t, h => by simp [allPlain, Ex.Plain] at h
  | .addr (.op _) :: t, h => by simp [allPlain, Ex.Plain] at h
  | .var d tr :: t, h => by
    simp only [allPlain] at h
    simp [looksargs, readsAll, looks_plain _ h.1, looksargs_plain t h.2]
  | .call n f a :: t, h => by
    simp only [allPlain] at h
    simp [looksargs, readsAll, looks_plain _ h.1, looksargs_plain t h.2]
  | .op a :: t, h => by
    simp only [allPlain] at h
    simp [looksargs, readsAll, looks_plain _ h.1, looksargs_plain t h.2]
theorem looksall_plain : ∀ l : List Ex, allPlain l → looksall l = readsAll l
  | [], _ => by simp [looksall, readsAll]
  | a :: t, h => by
    simp only [allPlain] at h
    simp [looksall, readsAll, looks_plain a h.1, looksall_plain t h.2]
end

theorem values_looks {s : Stmt} {e : Ex} {d : Nat} (h : e ∈ s.values) (hp : e.Plain) (hd : d ∈ e.reads) : d ∈ slooks s := by
  rw [← looks_plain e hp] at hd
  cases s <;> simp_all [Stmt.values, slooks]
  · rcases h with rfl | rfl <;> simp [hd]
  · rcases h with rfl | rfl <;> simp [hd]

/-- **C41, partial.** If a statement which may be reached with `d` undefined evaluates a plain expression which needs `d`,
the function is rejected. Missing: statements which assign to the variable they read, the targets of assignments,
called function pointers. -/
theorem undef_rejected_partial (P : List Stmt) (fuel d m : Nat) (void : Bool) (s : Stmt) (e : Ex) (u : Unique P) (hf : DeclFirst P d)
    (hd : d ≠ 0) (hm : P[m]? = some s) (he : e ∈ s.values) (hp : e.Plain) (hr : d ∈ e.reads) (ha : ¬ s.assigns d)
    (hu : Undefined P d m) : accepted fuel void P ≠ .ok true := by
  intro h
  unfold accepted at h
  rw [Res.bind_eq_ok] at h
  obtain ⟨g, hg, h⟩ := h
  rw [Res.bind_eq_ok] at h
  obtain ⟨a, _, h⟩ := h
  rw [Res.bind_eq_ok] at h
  obtain ⟨b, hb, h⟩ := h
  unfold checkreach at hb
  rw [Res.bind_eq_ok] at hb
  obtain ⟨r, hr', hb⟩ := hb
  have := undef_found (mkcfg_cfg hg) u hd hf hm (values_looks he hp hr) ha hu hr'
  rw [this] at hb
  cases hb
  simp at h

/-- What the check rejects has a reason: along some path of the graph a declaration without value reaches a statement at
which the check sees the variable used. -/
theorem reject_reason (P : List Stmt) (f fuel : Nat) (g : G) (hg : mkcfg f P = .ok g) (h : checkreach fuel g = .ok true) :
    ∃ b k n d w, g.live b = true ∧ (g.nodes b)[k]? = some n ∧ d ∈ slooks n.2 ∧ P[w]? = some (.undef d) ∧ Flows g w d b k := by
  have c := mkcfg_cfg hg
  unfold checkreach at h
  rw [Res.bind_eq_ok] at h
  obtain ⟨r, hr, h⟩ := h
  rw [Res.ok.injEq, List.any_eq_true] at h
  obtain ⟨b, hb, h⟩ := h
  rw [List.mem_filter] at hb
  obtain ⟨k, n, d, w, h1, h2, h3, h4⟩ := checkblk_why c hb.2 (g.nodes b) 0 rfl (by
    intro v d hv _ hP
    have hi := (reachloop_sound (closed_flows c) fuel _ _ (inv_empty _ _ _) hr).1
    have hfl := hi.s b v hv d _ hP (Or.inr rfl)
    obtain ⟨b', s', hb', hm'⟩ := flows_node c hfl
    have := node_stmt hm' hP
    subst this
    exact ⟨(mem_collect c).2 ⟨b', _, hb', hm', Or.inr rfl⟩, v, hP, hfl⟩) h
  exact ⟨b, k, n, d, w, hb.2, h1, h2, h3, h4⟩

/-- `var x; while c { x = 1 }; f(x)`: rejected. -/
def loopUse : List Stmt :=
  [.undef 5, .jmp 2, .label 1, .set (.var 5 true) (.op []), .label 2, .cjmp (.op []) 1 3, .label 3,
   .ex (.call false (.op []) [.var 5 true]), .label 9]

example : Undefined loopUse 5 7 ∧ accepted 60 true loopUse = .ok false := by
  refine ⟨⟨0, .refl, rfl, ?_⟩, of_isOk (by decide +kernel)⟩
  refine .tail (j := 5) (.tail (j := 1) .refl rfl (by simp [Stmt.assigns]) (.jmp (l := 2) (j := 4) rfl rfl)) rfl (by simp [Stmt.assigns]) ?_
  exact .cjmp (l := 3) (j := 6) rfl (Or.inr rfl) rfl

example : accepted 60 true loopUse ≠ .ok true := by
  refine undef_rejected_partial loopUse 60 5 7 true _ (.call false (.op []) [.var 5 true]) (unique_of _ (by decide)) ?_ (by decide) rfl
    (by simp [Stmt.values]) (by simp [Ex.Plain, Ex.reads, readsAll, allPlain]) (by simp [Ex.reads, readsAll]) (by simp [Stmt.assigns]) ?_
  · intro i j t h1 h2
    rcases j with _ | _ | _ | _ | _ | _ | _ | _ | _ | j
    · omega
    all_goals simp [loopUse] at h1
  · refine ⟨0, .refl, rfl, ?_⟩
    refine .tail (j := 5) (.tail (j := 1) .refl rfl (by simp [Stmt.assigns]) (.jmp (l := 2) (j := 4) rfl rfl)) rfl (by simp [Stmt.assigns]) ?_
    exact .cjmp (l := 3) (j := 6) rfl (Or.inr rfl) rfl

/-- With the variable set before the loop: accepted. -/
example : accepted 60 true (.undef 5 :: .set (.var 5 true) (.op []) :: loopUse.drop 1) = .ok true := of_isOk (by decide +kernel)

end Verif.Flow
