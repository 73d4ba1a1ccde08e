import Verif.Intg.Props
import Mathlib.Algebra.Order.Ring.Defs
import Mathlib.Algebra.Order.BigOperators.Group.List

/-!
# C76: symmetric and positive kernels; where the assembly fails
-/

namespace Verif.Intg
open Verif.Asm (Loc2 localBilin total2 Cons assemble2 AF2 Sys2 SetOrder Ascending IsProlongation Acyclic Free Test Trial Reach)
variable {κ X R F : Type} [CommRing R] [DecidableEq κ]

/-- **C76** (symmetry).  The operator of a symmetric kernel is symmetric, and the assembled matrix is, whether or not the kernel says so. -/
theorem C76_symmetric_partial {C : Cons R} (hac : Acyclic C.hng) (keep : Bool) {cells : List κ} (hnd : cells.Nodup) {k : X → X → R} {sym : Bool}
    {regs : κ → List (Reg X R)} {dofs : κ → List ℕ} (hok : (BForm.ip (F := F) k 1 sym regs dofs dofs).Ok cells) (hk : ∀ x y, k x y = k y x)
    (hsame : ∀ c ∈ cells, ∀ r ∈ regs c, r.tst = r.trl) :
    ∃ cs af N, contribs cells [BForm.ip (F := F) k 1 sym regs dofs dofs] = .ok cs ∧ (∀ fuel ≥ N, assemble2 C keep fuel cs = .ok af) ∧
      ∀ ord, SetOrder ord → ∀ s, af.consolidate ord = .ok s → ∀ i j i' j' (hi : i < s.urow.length) (hj : j < s.ucol.length) (hi' : i' < s.urow.length)
        (hj' : j' < s.ucol.length), s.urow[i] = s.ucol[j'] → s.urow[i'] = s.ucol[j] → s.entry i j = s.entry i' j' := by
  obtain ⟨cs, af, N, h1, h2, h3⟩ := C76_matrix_partial hac keep hnd (forms := [BForm.ip (F := F) k 1 sym regs dofs dofs]) (by simp)
    (by simpa using hok)
  refine ⟨cs, af, N, h1, h2, fun ord ho s hs i j i' j' hi hj hi' hj' e1 e2 => ?_⟩
  obtain ⟨P, hP⟩ := (Asm.C35_prolongation (R := R) (dir := C.dir) hac).1
  rw [h3 ord ho s hs P hP i j hi hj, h3 ord ho s hs P hP i' j' hi' hj', e1, e2]
  simp only [List.map_cons, List.map_nil, List.sum_cons, List.sum_nil, add_zero, value]
  have hn : ∀ w, tstNodes regs dofs cells w = trlNodes regs dofs cells w := by
    intro w
    simp only [tstNodes, trlNodes]
    exact List.flatMap_congr fun c hc => List.flatMap_congr fun r hr => by rw [hsame c hc r hr]
  rw [double_swap hk, hn, hn]

/-- The quadratic form of the matrix, without Dirichlet values. -/
theorem quadratic {C : Cons R} (hac : Acyclic C.hng) (keep : Bool) {cells : List κ} (hnd : cells.Nodup) {forms : List (BForm κ X R F)}
    (hne : forms ≠ []) (hf : ∀ f ∈ forms, f.Ok cells) :
    ∃ cs af N, contribs cells forms = .ok cs ∧ (∀ fuel ≥ N, assemble2 C keep fuel cs = .ok af) ∧
      ∀ ord, SetOrder ord → ∀ s, af.consolidate ord = .ok s → ∀ v x, Test C.hng C.dir v → Test C.hng C.dir x →
        ∑ i : Fin s.urow.length, ∑ j : Fin s.ucol.length, v s.urow[i] * s.entry i j * x s.ucol[j] = (forms.map (value cells v x)).sum := by
  obtain ⟨cs, h1, _, h3, h4, _⟩ := contribs_ok hnd hf
  obtain ⟨N, af, _, h5⟩ := Asm.C35_terminates hac keep cs ([] : List (κ × List (Asm.Loc1 R))) (h3 hne) (by simp)
  refine ⟨cs, af, N, h1, fun fuel hfu => (h5 fuel hfu).1, fun ord ho s hs v x hv hx => ?_⟩
  have := Asm.assemble2_val (t := 0) (h5 N le_rfl).1 hv hx.1 hx.2
  rw [zero_mul, add_zero] at this
  rw [Asm.matrix_val ho hs, this, h4]

/-- **C76** (positivity).  If the kernel is positive semidefinite, so is the assembled matrix: for all values `y` at the free dofs. -/
theorem C76_positive_partial [LinearOrder R] [IsStrictOrderedRing R] {C : Cons R} (hac : Acyclic C.hng) (keep : Bool) {cells : List κ} (hnd : cells.Nodup)
    {k : X → X → R} {sym : Bool} {regs : κ → List (Reg X R)} {dofs : κ → List ℕ} (hok : (BForm.ip (F := F) k 1 sym regs dofs dofs).Ok cells)
    (hsame : ∀ c ∈ cells, ∀ r ∈ regs c, r.tst = r.trl)
    (hk : ∀ ps : List (X × R), 0 ≤ (ps.map fun p => (ps.map fun q => p.2 * k p.1 q.1 * q.2).sum).sum) :
    ∃ cs af N, contribs cells [BForm.ip (F := F) k 1 sym regs dofs dofs] = .ok cs ∧ (∀ fuel ≥ N, assemble2 C keep fuel cs = .ok af) ∧
      ∀ ord, SetOrder ord → ∀ s, af.consolidate ord = .ok s → ∀ y : ℕ → R,
        0 ≤ ∑ i : Fin s.urow.length, ∑ j : Fin s.ucol.length, y s.urow[i] * s.entry i j * y s.ucol[j] := by
  obtain ⟨cs, af, N, h1, h2, h3⟩ := quadratic hac keep hnd (forms := [BForm.ip (F := F) k 1 sym regs dofs dofs]) (by simp) (by simpa using hok)
  refine ⟨cs, af, N, h1, h2, fun ord ho s hs y => ?_⟩
  obtain ⟨v, hv1, hv2, hv3⟩ := Asm.exists_conforming (dir := C.dir) hac y 0
  have hA := h2 N le_rfl
  have e : ∑ i : Fin s.urow.length, ∑ j : Fin s.ucol.length, y s.urow[i] * s.entry i j * y s.ucol[j] =
      ∑ i : Fin s.urow.length, ∑ j : Fin s.ucol.length, v s.urow[i] * s.entry i j * v s.ucol[j] :=
    Finset.sum_congr rfl fun i _ => Finset.sum_congr rfl fun j _ => by
      have q1 := hv3 _ (Asm.urow_free hA ho hs i.2)
      have q2 := hv3 _ (Asm.ucol_free hA ho hs j.2)
      simp only [Fin.getElem_fin] at *
      rw [q1, q2]
  have hn : tstNodes regs dofs cells v = trlNodes regs dofs cells v := by
    simp only [tstNodes, trlNodes]
    exact List.flatMap_congr fun c hc => List.flatMap_congr fun r hr => by rw [hsame c hc r hr]
  rw [e, h3 ord ho s hs v v ⟨hv1, hv2⟩ ⟨hv1, hv2⟩]
  simp only [List.map_cons, List.map_nil, List.sum_cons, List.sum_nil, add_zero, value, hn]
  exact hk _

/-! ### Failures -/

theorem mapM_error {α β ε : Type} {f : α → Except ε β} {l : List α} {a : α} (ha : a ∈ l) {e : ε} (h : f a = .error e) : ∃ e, l.mapM f = .error e := by
  induction l with
  | nil => simp at ha
  | cons b l ih =>
    rw [List.mapM_cons]
    cases hb : f b with
    | error e' => exact ⟨e', rfl⟩
    | ok y =>
      rcases List.mem_cons.1 ha with rfl | ha
      · rw [hb] at h; simp at h
      · obtain ⟨e', he⟩ := ih ha
        exact ⟨e', by simp [he, bind, Except.bind]⟩

theorem contribs_error {cells : List κ} {forms : List (BForm κ X R F)} {f : BForm κ X R F} (hf : f ∈ forms) {c : κ} (hc : c ∈ cells) {e : Err}
    (h : localOf cells c f = .error e) : ∃ e, contribs cells forms = .error e := by
  obtain ⟨e', he⟩ := mapM_error hf h
  exact mapM_error hc (e := e') (by rw [cellOf, he]; rfl)

/-- **C76 does not hold for forms on marked cells** (or marked edges): if a single cell of the mesh is not marked, `assemble` raises. -/
theorem C76_flag_violated {cells : List κ} {forms : List (BForm κ X R F)} {k : X → X → R} {n : ℕ} {sym : Bool} {regs : κ → List (Reg X R)} {tst trl : κ → List ℕ}
    {flag : Option F} {vert : ℕ → X} {all : List ℕ}
    (hf : BForm.ip k n sym regs tst trl ∈ forms ∨ BForm.ii k n regs flag vert all trl ∈ forms) {c : κ} (hc : c ∈ cells) (hr : regs c = []) :
    ∃ e, contribs cells forms = .error e := by
  rcases hf with hf | hf
  · refine contribs_error hf hc (e := .attribute) ?_
    cases cells with
    | nil => simp at hc
    | cons d cells => simp [localOf, rowIP, hr, evalIP, pure, Except.pure, bind, Except.bind, notNone]
  · cases hx : vertsII flag vert all with
    | error e => exact contribs_error hf hc (e := e) (by simp [localOf, hx, bind, Except.bind])
    | ok xs => exact contribs_error hf hc (e := .attribute) (by simp [localOf, hx, hr, evalII, bind, Except.bind, notNone])

/-- **C76 does not hold for kernels with several samples**: `assemble` raises, on every mesh. -/
theorem C76_samples_violated {cells : List κ} {forms : List (BForm κ X R F)} {k : X → X → R} {n : ℕ} {sym : Bool} {regs : κ → List (Reg X R)}
    {tst trl : κ → List ℕ} {flag : Option F} {vert : ℕ → X} {all : List ℕ} (hn : n ≠ 1)
    (hf : BForm.ip k n sym regs tst trl ∈ forms ∨ BForm.ii k n regs flag vert all trl ∈ forms) (hc : cells ≠ []) :
    ∃ e, contribs cells forms = .error e := by
  by_cases hr : ∃ c ∈ cells, regs c = []
  · obtain ⟨c, hc, hr⟩ := hr
    exact C76_flag_violated hf hc hr
  push Not at hr
  obtain ⟨c, hc⟩ := List.exists_mem_of_ne_nil _ hc
  rcases hf with hf | hf
  · refine contribs_error hf hc (e := .shape) ?_
    cases cells with
    | nil => simp at hc
    | cons d cells =>
      obtain ⟨r, rs, h1⟩ := List.exists_cons_of_ne_nil (hr c hc)
      obtain ⟨s, ss, h2⟩ := List.exists_cons_of_ne_nil (hr d (by simp))
      simp [localOf, rowIP, h1, h2, evalIP, passIP, hn, bind, Except.bind]
  · cases hx : vertsII flag vert all with
    | error e => exact contribs_error hf hc (e := e) (by simp [localOf, hx, bind, Except.bind])
    | ok xs =>
      obtain ⟨r, rs, h1⟩ := List.exists_cons_of_ne_nil (hr c hc)
      exact contribs_error hf hc (e := .shape) (by simp [localOf, hx, h1, evalII, hn, bind, Except.bind])

/-- **C76 does not hold for `IIForm` on submeshes**: with a subforest flag `assemble` raises. -/
theorem C76_submesh_violated {cells : List κ} {forms : List (BForm κ X R F)} {k : X → X → R} {n : ℕ} {regs : κ → List (Reg X R)}
    {trl : κ → List ℕ} {flag : F} {vert : ℕ → X} {all : List ℕ} (hf : BForm.ii k n regs (some flag) vert all trl ∈ forms) (hc : cells ≠ []) :
    ∃ e, contribs cells forms = .error e := by
  obtain ⟨c, hc⟩ := List.exists_mem_of_ne_nil _ hc
  exact contribs_error hf hc (e := .key) (by simp [localOf, vertsII, bind, Except.bind])

/-- Two unit intervals with the midpoint rule. -/
def exReg (c : ℕ) : Reg ℚ ℚ := ⟨1, fun _ => c + 1 / 2, fun _ => 1, fun _ _ => 1 / 2, fun _ _ => 1 / 2⟩

/-- Piecewise linear test, piecewise constant trial functions. -/
def exPetrov : BForm ℕ ℚ ℚ Empty := .ip (fun x y => x * y) 1 true (fun c => [{ exReg c with trl := fun _ _ => 1 }]) (fun c => [c, c + 1]) (fun c => [c])

/-- **C76 does not hold if test and trial functions differ** and the kernel is symmetric: rows and columns are exchanged for half of the cells. -/
theorem C76_petrov_violated : ∃ cs, contribs [0, 1] [exPetrov] = .ok cs ∧
    total2 cs (fun d => if d = 1 then 1 else 0) (fun d => if d = 1 then 1 else 0) = 9 / 8 ∧
    value [0, 1] (fun d => if d = 1 then 1 else 0) (fun d => if d = 1 then 1 else 0) exPetrov = 3 / 2 := by
  refine ⟨_, rfl, ?_, ?_⟩ <;> decide +kernel

/-- Both ends of an interval as regions (`dmu='dv'`). -/
def exEnds : BForm ℕ ℚ ℚ Empty := .ii (fun _ _ => 1) 1 (fun _ => [⟨1, fun _ => 0, fun _ => 1, fun _ _ => 0, fun _ a => if a = 0 then 1 else 0⟩,
  ⟨1, fun _ => 1, fun _ => 1, fun _ _ => 0, fun _ a => if a = 1 then 1 else 0⟩]) none (fun d => d) [0, 1] (fun _ => [0, 1])

/-- **C76 does not hold for `IIForm` with several regions in a cell**: only the first one counts. -/
theorem C76_regions_violated : ∃ cs, contribs [0] [exEnds] = .ok cs ∧ total2 cs (fun _ => 1) (fun d => if d = 1 then 1 else 0) = 0 ∧
    value [0] (fun _ => 1) (fun d => if d = 1 then 1 else 0) exEnds = 2 := by
  refine ⟨_, rfl, ?_, ?_⟩ <;> decide +kernel

/-! ### The hypotheses are met -/

/-- Piecewise linear functions on two cells, kernel `1 + x y`, which is positive semidefinite. -/
def exForm (sym : Bool) : BForm ℕ ℚ ℚ Empty := .ip (fun x y => 1 + x * y) 1 sym (fun c => [exReg c]) (fun c => [c, c + 1]) (fun c => [c, c + 1])

theorem exForm_ok (sym : Bool) : (exForm sym).Ok [0, 1] :=
  ⟨rfl, by simp, ⟨1, by simp [exReg]⟩, fun _ => ⟨fun x y => by ring, rfl, by simp [exReg]⟩⟩

theorem ex_psd (ps : List (ℚ × ℚ)) : 0 ≤ (ps.map fun p => (ps.map fun q => p.2 * (1 + p.1 * q.1) * q.2).sum).sum := by
  have e : (ps.map fun p => (ps.map fun q => p.2 * (1 + p.1 * q.1) * q.2).sum).sum = (ps.map (·.2)).sum ^ 2 + (ps.map fun p => p.2 * p.1).sum ^ 2 := by
    have : ∀ p ∈ ps, (ps.map fun q => p.2 * (1 + p.1 * q.1) * q.2).sum = p.2 * (ps.map (·.2)).sum + p.2 * p.1 * (ps.map fun q => q.2 * q.1).sum := by
      intro p _
      rw [← List.sum_map_mul_left, ← List.sum_map_mul_left, ← List.sum_map_add]
      exact congrArg List.sum (List.map_congr_left fun q _ => by ring)
    rw [List.map_congr_left this, List.sum_map_add, List.sum_map_mul_right, List.sum_map_mul_right]
    ring
  rw [e]
  positivity

/-- Both loops give the same matrix, here applied to two functions. -/
example : (exForm true).Ok [0, 1] ∧ (exForm false).Same [0, 1] ∧ (contribs [0, 1] [exForm true]).isOk ∧
    value [0, 1] (fun d => (d : ℚ)) (fun _ => 1) (exForm true) = 9 := ⟨exForm_ok _, rfl, by decide +kernel, by decide +kernel⟩

end Verif.Intg
