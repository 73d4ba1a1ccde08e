import Verif.Phys.Coords
import Verif.Dof.Continuity

/-!
# Where the points of the cells are in the plane
-/

namespace Verif.Phys
open Verif.Geom Verif.Quad Verif.Mesh Verif.Dof Verif.Fem

section
variable {K : Type} [Field K]

/-- `cell.reference_map(z, mapsto='physical')` (mesh.py 3914-3931) for the place `z` of the unit square. -/
def phys (q : QD K) (z : K × K) : Pt K := toPhys q ⟨z.1, z.2⟩

theorem phys_child (h2 : (2 : K) ≠ 0) (q : QD K) (fl : Finset Nat) (k : Fin 4) (z : K × K) :
    phys (q.child fl k) z = phys q (emb k z) := by
  unfold phys
  rw [toPhys_child q fl k k.2 _ h2]
  fin_cases k <;> simp only [Quad.corner, emb] <;> congr 2 <;> field_simp <;> ring

theorem phys_quadAt (h2 : (2 : K) ≠ 0) (B : Base K) (f : Nat) (p : List (Fin 4)) (z : K × K) :
    phys (quadAt B f p) z = phys (rootQ B f) (climb p z) := by
  induction p generalizing z with
  | nil => rfl
  | cons k p ih =>
    show phys ((quadAt B f p).child ∅ k) z = phys (rootQ B f) (climb p (emb k z))
    rw [phys_child h2, ih]

theorem phys_same {a b : QD K} (h : SameVerts a b) (z : K × K) : phys a z = phys b z := by
  obtain ⟨h0, h1, h2, h3⟩ := h
  simp only [phys, toPhys, h0, h1, h2, h3]

/-- A point on side `i` of a cell. -/
theorem phys_E (q : QD K) (i : Fin 4) (r : K) : phys q (E i r) =
    ⟨(1 - r) * (corner q i).x + r * (corner q (i + 1)).x, (1 - r) * (corner q i).y + r * (corner q (i + 1)).y⟩ := by
  unfold phys
  fin_cases i <;> simp only [E, toPhys, corner, Pt.mk.injEq] <;> constructor <;> simp <;> ring

/-- The place in the plane of a point of a cell of a refined mesh, in terms of its initial cell. -/
theorem phys_cell (h2 : (2 : K) ≠ 0) {B : Base K} (hB : B.WF) {s : St K} (h : MReach B s) (c : CN) (hc : c ∈ s.cells) (z : K × K) :
    phys (cellQ s c) z = phys (rootQ B c.1) (climb c.2 z) := by
  rw [phys_same (cellQ_eq hB h c hc), phys_quadAt h2]

end

section
variable {K : Type} [Field K] [LinearOrder K] [IsStrictOrderedRing K]

omit [Field K] [LinearOrder K] [IsStrictOrderedRing K] in
theorem corner_root (B : Base K) (f : Nat) (i : Fin 4) : corner (rootQ B f) i = B.xy (B.b (4 * f + i)) := by
  fin_cases i <;> rfl

/-- Without periodic edges, glued points are at one place. -/
theorem glued_phys {B : Base K} (hB : B.WF) (hP : Plain B) {x y : Nat × (K × K)} (h : Glued B x y) :
    phys (rootQ B x.1) x.2 = phys (rootQ B y.1) y.2 := by
  obtain ⟨i, j, r, h0, h1, hx, hy, hT, e1, e2⟩ := h
  have hp := hP.per (4 * x.1 + i) (by have := i.2; omega)
  unfold Base.per at hp
  rw [hT] at hp
  simp only [Bool.not_eq_false', Bool.and_eq_true, decide_eq_true_eq] at hp
  rw [e1, e2, phys_E, phys_E]
  simp only [corner_root]
  rw [hp.1, ← hB.chain x.1 hx i, ← hB.chain y.1 hy j, hp.2]
  simp only [Pt.mk.injEq]
  constructor <;> ring

/-- Without periodic edges, the same point of the domain is at one place. -/
theorem same_phys {B : Base K} (hB : B.WF) (hP : Plain B) {x y : Nat × (K × K)} (h : SamePt B x y) :
    phys (rootQ B x.1) x.2 = phys (rootQ B y.1) y.2 := by
  induction h with
  | rel x y h => exact glued_phys hB hP h
  | refl x => rfl
  | symm x y _ ih => exact ih.symm
  | trans x y z _ _ ih1 ih2 => exact ih1.trans ih2

end
end Verif.Phys
