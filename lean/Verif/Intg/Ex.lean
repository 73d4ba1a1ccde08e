import Verif.Intg.Line
import Verif.Bvp.Ex

/-!
# Examples for C76 on interval meshes
-/

namespace Verif.Intg
open Verif.Line Verif.OneD Verif.Fem Verif.Form Verif.Bvp
open Verif.Asm (Cons assemble2 sortedSet sortedSet_spec)

theorem ex_kernel : IsPoly2 (fun x y => 1 + x * y) 1 :=
  ⟨[(1, 1), (Polynomial.X, Polynomial.X)], by simp, fun x y => by simp⟩

/-- The hypotheses of `C76_exact_ip_partial` and `C76_exact_ii_partial`, and the whole assembly, on three cells of different sizes. -/
example (close : ℝ → ℝ → Bool) (e : ET) (he : e = .Q1 ∨ e = .Q2) (sym : Bool) :
    ∃ re F D V L, F = run (roots [0, 1, 3]) [.split [1]] ∧ distributeV close false (inSub none) e F (nCells F) DH.new DV.new = some (D, V) ∧
      Setting close [0, 1, 3] e none (nCells F) F D V L ∧ Gauss.rule1 3 = .ok re ∧
      (∃ cs af M, contribs L [ipForm (fun x y => 1 + x * y) sym re e F D] = .ok cs ∧
        ∀ fuel ≥ M, assemble2 (⟨fun _ => none, fun _ => none⟩ : Cons ℝ) true fuel cs = .ok af) ∧
      ∃ cs af M, contribs L [iiForm (fun x y => 1 + x * y) (fun _ => 2) [0, 1, 2] re e F D] = .ok cs ∧
        ∀ fuel ≥ M, assemble2 (⟨fun _ => none, fun _ => none⟩ : Cons ℝ) true fuel cs = .ok af := by
  have hto : torn e = false := by rcases he with rfl | rfl <;> rfl
  have hdeg : deg e ≤ 2 := by rcases he with rfl | rfl <;> decide
  obtain ⟨re, hre⟩ := (Gauss.C32_orders 3).1.2 (by norm_num)
  obtain ⟨D, V, L, md, d, mk, h1, h2, h3, h4, h5, h6, h7, h8⟩ := C72_setup ex_chain (by simp) hto (ex_uses close e)
    (m := nCells (run (roots [0, 1, 3] : List (Cell ℝ)) [.split [1]])) le_rfl leftEnd rightEnd (fun _ => 0)
  have hac : Asm.Acyclic (fun _ : ℕ => (none : Option (List ℕ × List ℝ))) := ⟨fun _ => 0, by simp⟩
  obtain ⟨cs, af, M, k1, k2, _⟩ := C76_exact_ip_partial (C := ⟨fun _ => none, fun _ => none⟩) hac true h6 hre (by norm_num) (N := 1) (by omega) ex_kernel
    (fun x y => by ring) sym
  obtain ⟨cs', af', M', k1', k2', _⟩ := C76_exact_ii_partial true h6 hre (by norm_num) (N := 1) (by omega) (k := fun x y => 1 + x * y)
    (fun x => ⟨1 + Polynomial.C x * Polynomial.X, by
      refine (Polynomial.natDegree_add_le _ _).trans (max_le (by simp) ?_)
      exact (Polynomial.natDegree_C_mul_le _ _).trans Polynomial.natDegree_X_le, fun y => by simp⟩) (fun _ => 2) (all := [0, 1, 2]) (by decide)
  exact ⟨re, _, D, V, L, rfl, h1, h6, hre, ⟨cs, af, M, k1, k2⟩, cs', af', M', k1', k2'⟩

end Verif.Intg
