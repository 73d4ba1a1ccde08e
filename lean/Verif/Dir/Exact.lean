import Verif.Dir.Props

/-! # C66: boundary values between the nodes -/

namespace Verif.Dir
open Verif.Mesh Verif.Dof Verif.Fem Verif.Bnd Verif.Quad Verif.Reg Verif.Phys

section
set_option linter.unusedSectionVars false
variable {K : Type} [Field K] [LinearOrder K] [IsStrictOrderedRing K]
variable {F : Type} [Field F] [LinearOrder F] [IsStrictOrderedRing F]
variable {close : Pt K → Pt K → Bool} {B : Base K} {e : ET} {sf : Bool} {s : St K} {D : DH} {V : DV K}

/-- On a side a finite element function is the polynomial through its values at the nodes of the side. -/
theorem side_poly (he : torn e = false) (U : Nat → F) (c : CN) (i : Fin 4) (P : Polynomial F) (hP : P.natDegree ≤ deg e)
    (h : ∀ p < nd2 e, ∀ t : ℚ, 0 ≤ t → t ≤ 1 → node e p = E i t → feFn e D U c (castPt F (node e p)) = P.eval (t : F)) (t : F) :
    feFn e D U c (E i t) = P.eval t := by
  have hc := cont_of he
  have hk : ∀ k < dpe2 e + 2, U (dofAt D c ((sideDofs e i).getD k 0)) = P.eval ((nodes1 e : List F).getD k 0) := by
    intro k hk
    obtain ⟨h1, h2⟩ := side_node e he i k hk
    have h3 : 0 ≤ (sideT e : List ℚ).getD k 0 ∧ (sideT e : List ℚ).getD k 0 ≤ 1 := by
      have : ∀ e : ET, torn e = true ∨ ∀ k < dpe2 e + 2, 0 ≤ (sideT e : List ℚ).getD k 0 ∧ (sideT e : List ℚ).getD k 0 ≤ 1 := by decide +kernel
      exact (this e).resolve_left (by simp [he]) k hk
    have := h _ h1 _ h3.1 h3.2 h2
    unfold feFn at this
    rw [cellFn_node _ _ h1] at this
    rw [this, nodes1_get, ← sideT_eq e hc, sideT_cast (F := F) he]
  unfold feFn
  rw [sidePt_E, trace_eq e hc i i.2, ← C30_polynomial e P hP t]
  unfold sideFn interp1
  rw [nd1_eq, np_cont e hc]
  apply sum_congr_range
  intro k hk'
  simp only
  rw [hk k hk', phi1_tb e k (by rw [nd1_eq, np_cont e hc]; exact hk')]
  rfl

/-- **C66**: where the prescribed function is, along a marked boundary side, a polynomial of the degree of the element (constant data, data
linear along the side, ...), the solution takes the prescribed values at all points of the side, not only at the nodes. -/
theorem C66_exact (hB : B.WF) (hP : Plain B) (he : torn e = false) (hV : ReadyV close B e sf s D V) (hr : RootsIn B sf s)
    (hf : sf = false ∨ (RootedFlag B s ∧ FullFlag s)) {n : Nat} (hn : 4 * s.cells.length ≤ n) (h1 : OneBoundary B)
    (cs : List (Option (Ent → Bool) × (Pt K → F))) (hcs : Compatible B sf s e D cs) {H C C' : List (Linsys.Con F)}
    (hh : setHanging sf s e D [] = some (H, C)) (hC : addAll sf B.n s n e D V cs C = some C') {k : Nat}
    (A : Matrix (Fin D.count) (Fin D.count) F) (b0 : Option (Matrix (Fin D.count) (Fin k) F))
    (b : Matrix (Fin D.count) (Fin k) F) (bopt : Option (Matrix (Fin D.count) (Fin k) F)) (factor : Bool)
    (hbo : bopt = some b ∨ (bopt = none ∧ b0 = some b)) (s' : Linsys.St F D.count k)
    (hs' : Linsys.Solve (Linsys.init (List.range D.count) C' A b0) bopt factor s')
    (mk : Option (Ent → Bool)) (g : Pt K → F) (hg : (mk, g) ∈ cs) (c : CN) (hc : c ∈ leaves sf s) (i : Fin 4) (hi : OnBoundary B c i)
    (hw : wanted mk (.half (s.sides c i)) = true) (P : Polynomial F) (hPd : P.natDegree ≤ deg e)
    (hPg : ∀ r : ℚ, 0 ≤ r → r ≤ 1 → g (phys (cellQ s c) (castPt K (E i r))) = P.eval (r : F)) :
    ∃ u, s'.u = some u ∧ ∀ l t, feFn e D (Linsys.colOf u l) c (E i t) = P.eval t := by
  obtain ⟨u, k1, k2⟩ := C66_solution hB hP he hV hr hf hn h1 cs hcs hh hC A b0 b bopt factor hbo s' hs'
  refine ⟨u, k1, fun l t => side_poly he _ c i P hPd (fun p hp r r0 r1 hpr => ?_) t⟩
  rw [(k2 l).2 (mk, g) hg c p ⟨hc, hp, i, r, hi, hw, r0, r1, hpr⟩, ← hPg r r0 r1]
  unfold place
  rw [hpr]

/-- **C66**: homogeneous or constant data on the whole boundary: the solution is that constant at every point of the boundary. -/
theorem C66_constant (hB : B.WF) (hP : Plain B) (he : torn e = false) (hV : ReadyV close B e sf s D V) (hr : RootsIn B sf s)
    (hf : sf = false ∨ (RootedFlag B s ∧ FullFlag s)) {n : Nat} (hn : 4 * s.cells.length ≤ n) (h1 : OneBoundary B) (v : F)
    {H C C' : List (Linsys.Con F)} (hh : setHanging sf s e D [] = some (H, C))
    (hC : addDirichlet none true sf B.n s n e D V (fun _ => v) C = some C') {k : Nat}
    (A : Matrix (Fin D.count) (Fin D.count) F) (b0 : Option (Matrix (Fin D.count) (Fin k) F))
    (b : Matrix (Fin D.count) (Fin k) F) (bopt : Option (Matrix (Fin D.count) (Fin k) F)) (factor : Bool)
    (hbo : bopt = some b ∨ (bopt = none ∧ b0 = some b)) (s' : Linsys.St F D.count k)
    (hs' : Linsys.Solve (Linsys.init (List.range D.count) C' A b0) bopt factor s') :
    ∃ u, s'.u = some u ∧ ∀ l, Single B sf s e D (Linsys.colOf u l) ∧ ∀ c ∈ leaves sf s, ∀ i, OnBoundary B c i → ∀ t : F,
      feFn e D (Linsys.colOf u l) c (E i t) = v := by
  have hcs : Compatible B sf s e D [((none : Option (Ent → Bool)), fun _ : Pt K => v)] := by
    intro y hy y' hy' c p c' p' _ _ _
    simp only [List.mem_singleton] at hy hy'
    subst hy hy'
    rfl
  have hC' : addAll sf B.n s n e D V [((none : Option (Ent → Bool)), fun _ : Pt K => v)] C = some C' := by
    simp only [addAll, hC, Option.bind_some]
  obtain ⟨u, k1, k2⟩ := C66_solution hB hP he hV hr hf hn h1 _ hcs hh hC' A b0 b bopt factor hbo s' hs'
  refine ⟨u, k1, fun l => ⟨(k2 l).1, fun c hc i hi t => ?_⟩⟩
  obtain ⟨u', k3, k4⟩ := C66_exact hB hP he hV hr hf hn h1 _ hcs hh hC' A b0 b bopt factor hbo s' hs' none _ (List.mem_singleton.2 rfl) c hc i
    hi rfl (Polynomial.C v) (by simp) (fun r _ _ => by simp)
  rw [k1] at k3
  cases k3
  rw [k4 l t]
  simp

end
end Verif.Dir
