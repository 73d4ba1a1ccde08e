import Verif.Fn.Interp
import Verif.Dir.Props

/-! # C67, C68: the hypotheses hold on rectangular grids and after `distribute_dofs` -/

namespace Verif.Fn
open Verif.Mesh Verif.Dof Verif.Fem Verif.Quad Verif.Phys Verif.Reg Verif.Bnd Verif.Dir

section
variable {K : Type} [Field K] [LinearOrder K] [IsStrictOrderedRing K] {B : Base K} {s : St K}

/-- **C67** (grids): the cells of rectangular grids are convex, and rectangles starting with a horizontal edge. -/
theorem C67_grid (xmin xmax ymin ymax : K) (hx : xmin < xmax) (hy : ymin < ymax) (nx ny : Nat) :
    Convex (gridBase xmin xmax ymin ymax nx ny) ∧ Affine (fun _ => true) (gridBase xmin xmax ymin ymax nx ny) := by
  have hn : (gridBase xmin xmax ymin ymax nx ny).n = nx * ny := grid_len nx ny
  have key : ∀ f < (gridBase xmin xmax ymin ymax nx ny).n, ∃ a b w h : K, 0 < w ∧ 0 < h ∧
      (rootQ (gridBase xmin xmax ymin ymax nx ny) f).v0 = ⟨a, b⟩ ∧ (rootQ (gridBase xmin xmax ymin ymax nx ny) f).v1 = ⟨a + w, b⟩ ∧
      (rootQ (gridBase xmin xmax ymin ymax nx ny) f).v2 = ⟨a + w, b + h⟩ ∧ (rootQ (gridBase xmin xmax ymin ymax nx ny) f).v3 = ⟨a, b + h⟩ := by
    intro f hf
    rw [hn] at hf
    have hnx : 0 < nx := by
      rcases Nat.eq_zero_or_pos nx with h | h
      · subst h; simp at hf
      · exact h
    have hny : 0 < ny := by
      rcases Nat.eq_zero_or_pos ny with h | h
      · subst h; simp at hf
      · exact h
    have h1 : f % nx < nx := Nat.mod_lt _ hnx
    have h2 : f / nx < ny := Nat.div_lt_of_lt_mul hf
    have h3 : f / nx * nx + f % nx = f := by rw [mul_comm]; exact Nat.div_add_mod f nx
    have g := fun z => grid_phys xmin xmax ymin ymax nx ny (f % nx) (f / nx) h1 h2 z
    rw [h3] at g
    have hw : 0 < (xmax - xmin) / nx := div_pos (by linarith) (by exact_mod_cast hnx)
    have hh : 0 < (ymax - ymin) / ny := div_pos (by linarith) (by exact_mod_cast hny)
    refine ⟨xmin + (f % nx : Nat) * ((xmax - xmin) / nx), ymin + (f / nx : Nat) * ((ymax - ymin) / ny), _, _, hw, hh, ?_, ?_, ?_, ?_⟩
    · have := g (0, 0)
      simp only [phys, toPhys, Pt.mk.injEq] at this
      ext
      · linear_combination this.1
      · linear_combination this.2
    · have := g (1, 0)
      simp only [phys, toPhys, Pt.mk.injEq] at this
      ext
      · linear_combination this.1
      · linear_combination this.2
    · have := g (1, 1)
      simp only [phys, toPhys, Pt.mk.injEq] at this
      ext
      · linear_combination this.1
      · linear_combination this.2
    · have := g (0, 1)
      simp only [phys, toPhys, Pt.mk.injEq] at this
      ext
      · linear_combination this.1
      · linear_combination this.2
  constructor
  · intro f hf
    obtain ⟨a, b, w, h, hw, hh, e0, e1, e2, e3⟩ := key f hf
    unfold ConvexCCW tri
    rw [e0, e1, e2, e3]
    have := mul_pos hw hh
    refine ⟨?_, ?_, ?_, ?_⟩ <;> simp only <;> nlinarith
  · intro f hf
    obtain ⟨a, b, w, h, hw, hh, e0, e1, e2, e3⟩ := key f hf
    left
    rw [e0, e1, e2, e3]
    exact ⟨rfl, rfl, rfl, rfl, rfl⟩

omit [LinearOrder K] [IsStrictOrderedRing K] in
theorem init_balanced : isBalanced false (init B) = true := by
  unfold isBalanced
  rw [List.all_eq_true]
  intro c _
  rw [List.all_eq_true]
  intro i _
  have h : ∀ d, hasCh false (init B) d = false := fun d => by simp [hasCh, init]
  unfold sideBad
  split <;> simp [h]

/-- **C67** (set-up): on a balanced mesh, `distribute_dofs` gives dofs and vertices with which the hypotheses of C67 and C68 hold, and there
is an order of the dofs of the basis as required. -/
theorem C67_setup (hB : B.WF) (hP : Plain B) (hs : MReach B s) (hb : isBalanced false s = true) (e : ET) (close : Pt K → Pt K → Bool) {n : Nat}
    (hn : 4 * s.cells.length ≤ n) : ∃ D V L, distributeV close false B.n s e n DH.new DV.new = some (D, V) ∧ ReadyV close B e false s D V ∧
      BasisOf false s e D L ∧ ∃ m, Deep s m := by
  obtain ⟨D, V, hd⟩ := C63_succeeds (close := close) (e := e) hB hP (.new s hs) hb false (.inl rfl) n hn
  have hR := readyV_first hB hP hs (.inl rfl) hb hn hd
  obtain ⟨L', _, h2⟩ := C67_basis hB hP hR.ready (fun _ _ => .inl rfl) (.inl rfl) hn
  refine ⟨D, V, L'.mergeSort, hd, hR, (h2 _ (List.mergeSort_perm _ _)).1 ?_, ?_⟩
  · intro m hm a ha
    have hsort := List.pairwise_mergeSort (le := fun a b : Nat => decide (a ≤ b)) (by simp; omega) (by simp; omega) L'
    have hm' : (L'.mergeSort (fun a b => decide (a ≤ b))).getLast? = some m := hm
    have ha' : a ∈ L'.mergeSort (fun a b => decide (a ≤ b)) := ha
    rw [List.getLast?_eq_some_iff] at hm'
    obtain ⟨l, hl⟩ := hm'
    rw [hl] at hsort ha'
    rw [List.pairwise_append] at hsort
    rcases List.mem_append.1 ha' with h | h
    · simpa using hsort.2.2 a h m (by simp)
    · simp at h; omega
  · obtain ⟨N, hN⟩ := level_bound s.cells
    exact ⟨N + 1, fun c hc => Nat.lt_succ_of_le (hN c hc)⟩

end
end Verif.Fn
