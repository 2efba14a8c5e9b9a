import Verif.Regex.Mono
import Verif.Regex.Loop

/-! # The machine on a pattern of the grammar -/

namespace Verif.Regex
open Verif.Utf

variable {cs : List Char32} {t : Ast} {n : Nat}

/-- Any run of a compiled pattern of the grammar. -/
theorem run_gr (tabs : List Byte → Option (List Rng)) (hcs : CodePoints cs) (h : Gr .alt cs t 1 n)
    (hok : Ok (fun _ => true) t = true) (hn : n ≤ 16) :
    ∃ N, ∀ fuel, N ≤ fuel → ∃ p, compile tabs fuel (enc cs) = .ok (.ok p) ∧ p.nmatch = n ∧
      (p.code.length ≤ 2 ^ 30 → ∀ s whole, ∃ M, ∀ f, M ≤ f → ∃ vm, run p f .fresh s whole = .ok vm ∧ vm.tail = .nil ∧
        (End s → Answer s (fun j g => Matches s t 0 j g) whole vm.best) ∧ (vm.best = none → vm.nthr = 0)) := by
  obtain ⟨t', N1, hs, h1⟩ := regexparse_gr tabs hcs h
  have hok' := Same.ok hs hok
  have hv := ok_validT t' hok'
  obtain ⟨N2, h2⟩ := genall_ok t' hv
  refine ⟨max N1 N2, fun fuel hf => ?_⟩
  obtain ⟨q, hq, hb⟩ := h2 fuel (by omega)
  refine ⟨{ code := (prog q).map encinst, nmatch := n }, ?_, rfl, fun hl s whole => ?_⟩
  · unfold compile
    rw [h1 fuel (by omega)]
    simp only [Res.bind_ok]
    rw [hq]
    rfl
  · obtain ⟨M, hM⟩ := exec_ok hv hb (by simpa using hl) n hn s whole
    refine ⟨M, fun f hf => ?_⟩
    obtain ⟨vm, e1, e2, e3, e4⟩ := hM f hf
    refine ⟨vm, e1, e2, fun he => ?_, e4⟩
    simp only [matches_text he hok', ← hs.matches s] at e3
    exact e3

end Verif.Regex
